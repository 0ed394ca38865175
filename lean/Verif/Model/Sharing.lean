import Verif.Model.Limits
import Verif.Model.Loads
import Verif.Model.Motors

/-!
# Objects shared between instances

Class level dictionaries and lists live in an explicit heap; an object holds the positions of the dictionaries it refers
to.  Only what is needed to decide which instance sees which writes is modelled.
-/

namespace GEM.Sharing

open GEM.Utils GEM.Init

variable {K : Type} [Field K] [LinearOrder K]

/-! ## Loads -/

/-- A `ConstantSpeedLoad` or `PolynomialStaticLoad`.  `states` is the position of `_initializer["states"]`; because of
`self._initial_states = self._initializer.get("states", …)` (mechanical_load.py:97) `_initial_states` is the same
dictionary.  `cfg` has the other entries of `_initializer`; `omega` is `_omega` of a `ConstantSpeedLoad`. -/
structure LoadObj (K : Type) where
  states : ℕ
  cfg : Cfg K
  omega : Option K

/-- The `load_initializer` argument: a dictionary object for `"states"`, if that key is given, and the random entries. -/
structure LoadInit (K : Type) where
  states : Option ℕ := none
  cfg : Cfg K := ⟨[], none, none, none, none, none⟩

/-- Heap of dictionaries and the loads created so far. Position 0 is `ConstantSpeedLoad._default_initializer["states"]`
(constant_speed_load.py:13-18), position 1 that of `PolynomialStaticLoad` (polynomial_static_load.py:40-45). -/
structure World (K : Type) where
  heap : List (Dict K)
  loads : List (LoadObj K)

/-- The state right after importing the package. -/
def World.initial : World K := ⟨[[("omega", 0)], [("omega", 0)]], []⟩

/-- What a program can do with loads. -/
inductive Event (K : Type) where
  /-- the user writes a dictionary -/
  | dict (d : Dict K)
  /-- `ConstantSpeedLoad(omega_fixed, load_initializer)` -/
  | newConst (omegaFixed : K) (init : LoadInit K)
  /-- `PolynomialStaticLoad(load_initializer=…)` -/
  | newPoly (init : LoadInit K)
  /-- `loads[i].reset(…)`; `bounds` stands for the state space and nominal values of the system -/
  | reset (i : ℕ) (bounds : List String → Except Err (List K × List K)) (rvs : Rvs K) (pool : ℕ) (draws : List K)

/-- `ConstantSpeedLoad.__init__` (constant_speed_load.py:28-38) with `MechanicalLoad.__init__` (mechanical_load.py:84-98). -/
def newConst (w : World K) (omegaFixed : K) (init : LoadInit K) : World K × Except Err (List K) :=
  let r := init.states.getD 0
  match w.heap[r]? with
  | none => (w, .error .generic)
  | some d =>
    match (if omegaFixed = 0 then get d "omega" else .ok omegaFixed) with
    | .error e => (w, .error e)
    | .ok om =>
      let heap := if omegaFixed ≠ 0 then w.heap.set r (dictSet d "omega" omegaFixed) else w.heap
      (⟨heap, w.loads ++ [⟨r, init.cfg, some om⟩]⟩, .ok [])

/-- `PolynomialStaticLoad.__init__` (polynomial_static_load.py:68-85) with `MechanicalLoad.__init__`. -/
def newPoly (w : World K) (init : LoadInit K) : World K × Except Err (List K) :=
  (⟨w.heap, w.loads ++ [⟨init.states.getD 1, init.cfg, none⟩]⟩, .ok [])

/-- `MechanicalLoad.reset` and `initialize` (mechanical_load.py:100-167). -/
def resetLoad (w : World K) (i : ℕ) (bounds : List String → Except Err (List K × List K)) (rvs : Rvs K) (pool : ℕ)
    (draws : List K) : World K × Except Err (List K) :=
  match w.loads[i]? with
  | none => (w, .error .index)
  | some o =>
    match w.heap[o.states]? with
    | none => (w, .error .generic)
    | some d =>
      match bounds (d.map Prod.fst) with
      | .error e => (w, .error e)
      | .ok b =>
        match drawValues o.cfg rvs pool draws b.1 b.2 d with
        | .error e => (w, .error e)
        | .ok vals =>
          let d' := writeBack d vals
          ({ w with heap := w.heap.set o.states d' }, .ok (d'.map Prod.snd))

/-- One event: new world and what the call returns. -/
def exec (w : World K) : Event K → World K × Except Err (List K)
  | .dict d => ({ w with heap := w.heap ++ [d] }, .ok [])
  | .newConst om init => newConst w om init
  | .newPoly init => newPoly w init
  | .reset i bounds rvs pool draws => resetLoad w i bounds rvs pool draws

/-- A program. -/
def run (w : World K) (es : List (Event K)) : World K := es.foldl (fun w e => (exec w e).1) w

/-! ## Motors -/

/-- A motor: its own `_initial_states` (electric_motor.py:134-137), the dictionaries `_initializer["states"]` and
`_default_initializer["states"]` it reads, the random entries. -/
structure MotorObj (K : Type) where
  own : ℕ
  states : ℕ
  defaults : ℕ
  cfg : Cfg K
  nZero : ℕ

/-- Heap and motors. -/
structure MWorld (K : Type) where
  heap : List (Dict K)
  motors : List (MotorObj K)

/-- What a program can do with motors. -/
inductive MEvent (K : Type) where
  | dict (d : Dict K)
  /-- create a motor whose class has the default dictionary at `defaults`, with the user's (or again the default) dictionary
  at `states` -/
  | new (states defaults : ℕ) (cfg : Cfg K) (nZero : ℕ)
  | reset (i : ℕ) (bounds : List String → Except Err (List K × List K)) (rvs : Rvs K) (pool : ℕ) (draws : List K)

/-- The configuration a motor sees when it reads its dictionaries. -/
def MotorObj.seen (o : MotorObj K) (heap : List (Dict K)) : Cfg K :=
  { o.cfg with states := heap[o.states]?, defaults := (heap[o.defaults]?).getD [] }

/-- Construction and reset of motors (electric_motor.py:126-145, 179-288). -/
def mexec (w : MWorld K) : MEvent K → MWorld K × Except Err (List K)
  | .dict d => ({ w with heap := w.heap ++ [d] }, .ok [])
  | .new states defaults cfg nZero =>
    let o : MotorObj K := ⟨w.heap.length, states, defaults, cfg, nZero⟩
    (⟨w.heap ++ [motorInitial (o.seen w.heap)], w.motors ++ [o]⟩, .ok [])
  | .reset i bounds rvs pool draws =>
    match w.motors[i]? with
    | none => (w, .error .index)
    | some o =>
      match motorReset (o.seen w.heap) bounds rvs pool draws o.nZero ((w.heap[o.own]?).getD []) with
      | .error e => (w, .error e)
      | .ok r => ({ w with heap := w.heap.set o.own r.1 }, .ok r.2)

/-- A program. -/
def mrun (w : MWorld K) (es : List (MEvent K)) : MWorld K := es.foldl (fun w e => (mexec w e).1) w

/-! ## Induction motors -/

/-- The class attributes `InductionMotor.IO_VOLTAGES` and `IO_CURRENTS` (induction_motor.py:102-103), shared with both
subclasses. -/
structure ImClass where
  voltages : List String
  currents : List String

/-- After importing the package. -/
def ImClass.initial : ImClass := ⟨GEM.Limits.imIos.map Prod.fst, GEM.Limits.imIos.map Prod.snd⟩

/-- `DoublyFedInductionMotor.__init__` (doubly_fed_induction_motor.py:130-133): `self.IO_VOLTAGES += …` extends the list
object of the base class. -/
def ImClass.newDfim (c : ImClass) : ImClass :=
  ⟨c.voltages ++ ["u_ra", "u_rb", "u_rc", "u_rd", "u_rq"], c.currents ++ ["i_ra", "i_rb", "i_rc", "i_rd", "i_rq"]⟩

/-- Limits and nominal values of a `SquirrelCageInductionMotor` created when the class attributes are `c`
(squirrel_cage_induction_motor.py:131-146). -/
def scimLimits (c : ImClass) (defL defN : Dict K) (rs : K) (tl : Dict K → Dict K → Except Err K) (uL uN : Dict K) :
    Except Err (Dict K × Dict K) :=
  GEM.Limits.acLimits defL defN (c.voltages.zip c.currents) rs tl uL uN

/-! ## AC supplies -/

/-- An AC supply: frequency, phase, whether the phase is fixed. -/
structure AcSupply (K : Type) where
  f : K
  phi : K
  fixed : Bool

/-- `AC1PhaseSupply.__init__` / `AC3PhaseSupply.__init__` with a parameter dictionary (voltage_supplies.py:139-157,
183-201): the dictionary afterwards and the supply. `draw` is `np.random.rand() * 2 * np.pi`, `twoPi` is `2 * np.pi`. -/
def acNew (twoPi : K) (d : Dict K) (draw : K) : Except Err (Dict K × AcSupply K) :=
  match lookup d "frequency" with
  | none => .error .assertion
  | some f =>
    match lookup d "phase" with
    | some p => if 0 ≤ p ∧ p < twoPi then .ok (d, ⟨f, p, true⟩) else .error .assertion
    | none => .ok (dictSet d "phase" draw, ⟨f, draw, false⟩)

/-- `reset` (voltage_supplies.py:158-161, 202-206): the phase of the new episode. -/
def AcSupply.reset (s : AcSupply K) (draw : K) : AcSupply K := if s.fixed then s else { s with phi := draw }

/-! ## Environments -/

/-- `ElectricMotorEnvironment.sim` is one class level object (core.py:110); creating an environment writes its sampling
time into it (core.py:234). -/
structure Envs (K : Type) where
  simTau : K
  taus : List K

/-- `ElectricMotorEnvironment.__init__` with a physical system of sampling time `tau`. -/
def Envs.new (w : Envs K) (tau : K) : Envs K := ⟨tau, w.taus ++ [tau]⟩

/-- `envs[i].sim.tau`. -/
def Envs.simTauOf (w : Envs K) (i : ℕ) : Option K := (w.taus[i]?).map (fun _ => w.simTau)

/-! ## Class level scratch array of the permanently excited DC motor -/

/-- `DcPermanentlyExcitedMotor.electrical_ode` (dc_permanently_excited_motor.py:65, 81-84): every entry of the class level
array is overwritten, then the product is formed. `scratch` is what other instances left there. -/
def permExOdeScratch (mp : GEM.Motor.PermExParams K) (scratch : Fin 3 → K) (i u omega : K) : (Fin 3 → K) × K :=
  let written : Fin 3 → K := fun j => if j = 0 then omega else if j = 1 then i else if j = 2 then u else scratch j
  (written, (-mp.psiE / mp.la) * written 0 + (-mp.ra / mp.la) * written 1 + (1 / mp.la) * written 2)

end GEM.Sharing
