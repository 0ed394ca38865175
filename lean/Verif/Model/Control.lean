import Mathlib.Algebra.BigOperators.Fin
import Mathlib.Algebra.Order.Field.Basic
import Verif.Model.Basic
import Verif.Model.Motors

/-!
# Stages of the classical controllers  (`src/gem_controllers`)

The arrays of a stage that was tuned all have the length `n` of the list of controlled quantities (`reader.currents`,
`reader.voltages`, or one for the speed controller); they are functions on `Fin n`, a state is a function on `Fin m` and an
index list a function `Fin n → Fin m`.  What an untuned stage does (it raises) is not modelled, with one exception: the
integrator, which keeps the one-element array of the constructor until the first `reset`.  The `clipping_difference` of a
clipping stage is only read directly after the stage was called; it is a result of the call here.
-/

namespace GEM.Ctl

open GEM

variable {K : Type} [Field K] [LinearOrder K] [IsStrictOrderedRing K] {n m : ℕ}

/-! ## Base controllers -/

/-- The linear base controllers (stages/base_controllers/utils.py 8–15). -/
inductive Kind | P | I | PI | PID
deriving DecidableEq

/-- Attributes of the P, I, PI and PID controllers.  `integrator = none` is `np.array([0.0])` of the constructor
(i_controller.py 71). -/
structure Base (n m : ℕ) (K : Type) where
  kind : Kind
  pGain : Fin n → K
  iGain : Fin n → K
  dGain : Fin n → K
  tau : K
  idx : Fin n → Fin m
  integrator : Option (Fin n → K)
  last : Fin n → K

/-- The value of the integrator, broadcast to the length of the gains. -/
def Base.integ (b : Base n m K) : Fin n → K := b.integrator.getD (fun _ => 0)

/-- `reference - state[self._state_indices]` -/
def Base.error (b : Base n m K) (s : Fin m → K) (r : Fin n → K) : Fin n → K := fun i => r i - s (b.idx i)

/-- `PController._control` (p_controller.py 66–68) -/
def Base.pPart (b : Base n m K) (s : Fin m → K) (r : Fin n → K) : Fin n → K := fun i => b.pGain i * b.error s r i

/-- `IController._control` (i_controller.py 88–90) -/
def Base.iPart (b : Base n m K) : Fin n → K := fun i => b.iGain i * b.integ i

/-- the differential part (pid_controller.py 40–41) -/
def Base.dPart (b : Base n m K) (s : Fin m → K) (r : Fin n → K) : Fin n → K := fun i =>
  b.dGain i * (b.error s r i - b.last i) / b.tau

/-- `control` (p_controller.py 70–81, i_controller.py 92–103, pi_controller.py 22–38, pid_controller.py 28–43) -/
def Base.control (b : Base n m K) (s : Fin m → K) (r : Fin n → K) : Base n m K × (Fin n → K) :=
  match b.kind with
  | .P => (b, b.pPart s r)
  | .I => (b, b.iPart)
  | .PI => (b, fun i => b.pPart s r i + b.iPart i)
  | .PID => ({ b with last := b.error s r }, fun i => b.pPart s r i + b.iPart i + b.dPart s r i)

/-- `hasattr(controller, 'integrator')` -/
def Kind.integrates : Kind → Bool
  | .P => false
  | _ => true

/-- `reset` (stage.py 15–17, i_controller.py 117–121): the P controller has none, the PID controller inherits it. -/
def Base.reset (b : Base n m K) : Base n m K :=
  if b.kind.integrates then { b with integrator := some (fun _ => 0) } else b

/-- `controller.integrator += delta` if there is an integrator (pi_current_controller.py 173–175, pi_speed_controller.py
121–123): an array of length one cannot take a longer increment in place, numpy raises a ValueError. -/
def Base.integrate (b : Base n m K) (delta : Fin n → K) : Call (Base n m K) Unit :=
  if b.kind.integrates then
    match b.integrator with
    | some v => ({ b with integrator := some (fun i => v i + delta i) }, .ok ())
    | none => if n = 1 then ({ b with integrator := some delta }, .ok ()) else (b, .error .value)
  else (b, .ok ())

/-- `_tune_current_controller` (p_controller.py 100–124, pi_controller.py 60–87, pid_controller.py 45–55) on a new
controller: `l` are the inductances of the axes; the setter of `i_gain` clips at zero (i_controller.py 20–23). -/
def Base.tuneCurrent (kind : Kind) (l : Fin n → K) (tau a : K) (idx : Fin n → Fin m) : Base n m K where
  kind := kind
  pGain := fun i => l i / (tau * a)
  iGain := fun i => max (l i / (tau * a) / (tau * a ^ 2)) 0
  dGain := fun i => l i / (tau * a) * tau
  tau := tau
  idx := idx
  integrator := none
  last := fun _ => 0

/-- `_tune_speed_controller` of the PI controller (p_controller.py 126–149, pi_controller.py 89–104) on a new controller -/
def Base.tuneSpeed (j tau a tn : K) (omegaIdx : Fin m) : Base 1 m K where
  kind := .PI
  pGain := fun _ => j / (a * tn)
  iGain := fun _ => max (j / (a * tn) / (a * tn)) 0
  dGain := fun _ => 0
  tau := tau
  idx := fun _ => omegaIdx
  integrator := none
  last := fun _ => 0

/-- the entry `'SCIM'` of `l_reader` (parameter_reader.py 70–83), both axes -/
def lReaderScim (mp : Motor.ImParams K) : K := (mp.lsigr + mp.lm) / mp.rr

/-- Attributes of the `ThreePointController`. -/
structure ThreePoint (n m : ℕ) (K : Type) where
  hysteresis : Fin n → K
  idx : Fin n → Fin m
  low : Fin n → K
  idle : Fin n → K
  high : Fin n → K

/-- `ThreePointController.__call__` (three_point_controller.py 80–94): `np.select` takes the first condition that holds -/
def ThreePoint.control (t : ThreePoint n m K) (s : Fin m → K) (r : Fin n → K) : Fin n → K := fun i =>
  if r i < s (t.idx i) - t.hysteresis i then t.low i
  else if s (t.idx i) + t.hysteresis i < r i then t.high i
  else t.idle i

/-- `_tune_current_controller` (three_point_controller.py 112–138); `lo`, `hi` are the voltage range -/
def ThreePoint.tuneCurrent (lo hi : Fin n → K) (idx : Fin n → Fin m) : ThreePoint n m K where
  hysteresis := fun i => 1 / 100 * (hi i - lo i)
  idx := idx
  low := lo
  idle := fun _ => 0
  high := hi

/-! ## Clipping stages -/

/-- The clipping stages with their tuned attributes.  The index arrays of the combined stage (`[0, 1]` and `[2]`) are a mask:
true for the states that are clipped together. -/
inductive Clip (n : ℕ) (K : Type) where
  | absolute (lo hi : Fin n → K)
  | squared (limits : Fin n → K) (margin : K)
  | combined (together : Fin n → Bool) (limits : Fin n → K) (lo hi : Fin n → K) (margin : K)

/-- the scaling of a vector whose relative squared length is `q` (squared_clipping_stage.py 55–60,
combined_clipping_stage.py 39–44) -/
def shorten (q margin x : K) : K := if q < (1 - margin) ^ 2 then x else x / q * (1 - margin)

/-- `__call__` (absolute_clipping_stage.py 32–46, squared_clipping_stage.py 42–62, combined_clipping_stage.py 36–51) -/
def Clip.call : Clip n K → (Fin n → K) → (Fin n → K)
  | .absolute lo hi, r => fun i => clip (r i) (lo i) (hi i)
  | .squared limits margin, r => fun i => shorten (∑ j, (r j / limits j) ^ 2) margin (r i)
  | .combined together limits lo hi margin, r => fun i =>
    if together i then shorten (∑ j, if together j then (r j / limits j) ^ 2 else 0) margin (r i)
    else clip (r i) (lo i) (hi i)

/-- `clipping_difference` after a call -/
def Clip.difference (c : Clip n K) (r : Fin n → K) : Fin n → K := fun i => r i - c.call r i

/-- `AbsoluteClippingStage.tune` (lines 48–73): `limit`, `low`, `high` are the limits and the bounds of the normalised state
space of the clipped quantities -/
def Clip.tuneAbsolute (limit low high : Fin n → K) (margin : K) : Clip n K :=
  .absolute (fun i => low i * (limit i * (1 - margin))) (fun i => high i * (limit i * (1 - margin)))

/-- `SquaredClippingStage.tune` (lines 64–83): the argument `margin` is not stored, `_margin` remains 0 of the constructor. -/
def Clip.tuneSquared (limit : Fin n → K) (_margin : K) : Clip n K := .squared limit 0

/-- `CombinedClippingStage.tune` (lines 53–90) -/
def Clip.tuneCombined (together : Fin n → Bool) (limit low high : Fin n → K) (margin : K) : Clip n K :=
  .combined together (fun i => limit i * (1 - margin)) (fun i => low i * (limit i * (1 - margin)))
    (fun i => high i * (limit i * (1 - margin))) margin

/-! ## Anti-windup, current and speed controller -/

/-- `AntiWindup.__call__` (anti_windup.py 41–59) -/
def antiWindup (tau : K) (idx : Fin n → Fin m) (s : Fin m → K) (r : Fin n → K) (difference : Fin n → K) : Fin n → K :=
  fun i => tau * (r i - s (idx i)) * (if difference i = 0 then 1 else 0)

/-- The parts of a `PICurrentController` with a linear base controller: `ff` is the feedforward stage if decoupling is
enabled; `tau` and `idx` are the attributes of the anti-windup stage; `voltage` is `_voltage_reference`. -/
structure Current (n m : ℕ) (K : Type) where
  base : Base n m K
  ff : Option ((Fin m → K) → (Fin n → K) → (Fin n → K))
  clipping : Clip n K
  tau : K
  idx : Fin n → Fin m
  voltage : List K

/-- The stage's answer before clipping (pi_current_controller.py 158–163). -/
def Current.raw (c : Current n m K) (s : Fin m → K) (r : Fin n → K) : Fin n → K :=
  match c.ff with
  | none => (c.base.control s r).2
  | some f => f s (c.base.control s r).2

/-- `current_control` (pi_current_controller.py 146–177); `T` is the coordinate transformation, or the identity. -/
def Current.control {k : ℕ} (T : (Fin m → K) → (Fin n → K) → (Fin k → K)) (c : Current n m K) (s : Fin m → K) (r : Fin n → K) :
    Call (Current n m K) (Fin k → K) :=
  let u := c.raw s r
  let d := (c.base.control s r).1.integrate (antiWindup c.tau c.idx s r (c.clipping.difference u))
  ({ c with base := d.1, voltage := List.ofFn (c.clipping.call u) }, d.2.map (fun _ => T s u))

/-- `store` puts the returned voltage into `_voltage_reference` -/
def Current.store {k : ℕ} (c : Current n m K) (r : Except Err (Fin k → K)) : Current n m K :=
  match r with
  | .ok u => { c with voltage := List.ofFn u }
  | .error _ => c

/-- `control` (pi_current_controller.py 179–192), the entry point of a pure current control -/
def Current.controlTop {k : ℕ} (T : (Fin m → K) → (Fin n → K) → (Fin k → K)) (c : Current n m K) (s : Fin m → K)
    (r : Fin n → K) : Call (Current n m K) (Fin k → K) :=
  let a := c.control T s r
  (a.1.store a.2, a.2)

/-- `reset` (pi_current_controller.py 194–197): the other stages have nothing to forget -/
def Current.reset (c : Current n m K) : Current n m K := { c with base := c.base.reset }

/-- The parts of a `PISpeedController` above the torque controller. -/
structure Speed (m : ℕ) (K : Type) where
  base : Base 1 m K
  clipping : Clip 1 K
  tau : K
  idx : Fin 1 → Fin m

/-- `speed_control` (pi_speed_controller.py 104–125) -/
def Speed.control (c : Speed m K) (s : Fin m → K) (r : Fin 1 → K) : Call (Speed m K) (Fin 1 → K) :=
  let u := (c.base.control s r).2
  let d := (c.base.control s r).1.integrate (antiWindup c.tau c.idx s r (c.clipping.difference u))
  ({ c with base := d.1 }, d.2.map (fun _ => c.clipping.call u))

/-- `reset` (pi_speed_controller.py 147–150), the part above the torque controller -/
def Speed.reset (c : Speed m K) : Speed m K := { c with base := c.base.reset }

/-- `TorqueController.control` (torque_controller.py 137–158); the operation point selection is a state `σ` with a call. -/
def torqueControl {σ : Type} {k : ℕ} (T : (Fin m → K) → (Fin n → K) → (Fin k → K))
    (ops : σ → (Fin m → K) → K → Call σ (Fin n → K)) (clipping : Clip n K) (st : σ × Current n m K) (s : Fin m → K)
    (torque : K) : Call (σ × Current n m K) (Fin k → K) :=
  let o := ops st.1 s torque
  match o.2 with
  | .error e => ((o.1, st.2), .error e)
  | .ok i =>
    let c := st.2.control T s (clipping.call i)
    ((o.1, c.1), c.2)

/-! ## Input and output stages -/

/-- `InputStage.__call__` (input_stage.py 32–45) on copies of state and reference (gem_adapter.py 83–86) -/
def inputStage {k : ℕ} (limits : Fin m → K) (refLimits : Fin k → K) (s : Fin m → K) (r : Fin k → K) :
    (Fin m → K) × (Fin k → K) :=
  (fun i => s i * limits i, fun i => r i * refLimits i)

/-- `ContOutputStage.__call__` (cont_output_stage.py 25–27) -/
def contOutput {k : ℕ} (limits : Fin k → K) (u : Fin k → K) : Fin k → K := fun i => u i / limits i

/-- The three kinds of discrete action spaces `DiscOutputStage.tune` distinguishes (disc_output_stage.py 110–130). -/
inductive ActionSpace where
  | discrete (n : ℕ)
  | multi (nvec : List ℕ)
  | b6
deriving DecidableEq

/-- `_get_actions`, as low, idle and high action (disc_output_stage.py 132–140) -/
def getActions (n : ℕ) : ℕ × ℕ × ℕ := (if n = 2 then 0 else 2, 0, 1)

/-- The two switching levels of a voltage with range `[lo, hi]` (disc_output_stage.py 107–108). -/
def level (lo hi : K) : K := 33 / 100 * (hi - lo)

/-- one entry of `np.select` (disc_output_stage.py 85–86) -/
def selectAction (acts : ℕ × ℕ × ℕ) (lo hi u : K) : ℕ :=
  if u ≤ -level lo hi then acts.1 else if level lo hi ≤ u then acts.2.2 else acts.2.1

/-- an entry per voltage -/
def selectAll : List (ℕ × ℕ × ℕ) → List (K × K) → List K → List ℕ
  | a :: as, r :: rs, u :: us => selectAction a r.1 r.2 u :: selectAll as rs us
  | _, _, _ => []

/-- An action: a number or an array of numbers. -/
inductive DiscAction where
  | one (a : ℕ)
  | many (as : List ℕ)
deriving DecidableEq

/-- `DiscOutputStage.__call__` after `tune` (disc_output_stage.py 36–86, 110–130); `ranges` are the ranges of the output
voltages, one per entry of `u`.  `np.select` broadcasts the action lists against the voltages: lengths that differ raise a
ValueError, unless one of them is 1 (the broadcast of a single voltage to several actions is not modelled; there is none). -/
def discOutput (sp : ActionSpace) (ranges : List (K × K)) (u : List K) : Except Err DiscAction :=
  match sp with
  | .b6 => .error .notImplemented
  | .discrete n =>
    match selectAll (List.replicate u.length (getActions n)) ranges u with
    | [] => .error .index
    | a :: _ => .ok (.one a)
  | .multi nvec =>
    if nvec.length = u.length then .ok (.many (selectAll (nvec.map getActions) ranges u)) else .error .value

/-! ## Feedforward -/

/-- `EMFFeedforward.__call__` (emf_feedforward.py 74–86): inductances, fluxes and current indices per axis -/
def emf (p : K) (inductance psi : Fin n → K) (cur : Fin n → Fin m) (omega : Fin m) (s : Fin m → K) (r : Fin n → K) :
    Fin n → K :=
  fun i => r i + (inductance i * s (cur i) + psi i) * (s omega * p)

/-- `EMFFeedforwardEESM.__call__` (emf_feedforward_eesm.py 20–36, 47–59, parameter_reader.py 144–152).  `sd`, `sq`, `e` are the indices of the currents; the term
with factor 0 reads another entry of the state in the code. -/
def emfEesm (mp : Motor.EesmParams K) (omega sd sq e : Fin m) (s : Fin m → K) (r : Fin 3 → K) : Fin 3 → K :=
  let a := emf mp.p ![-mp.lq, mp.ld, mp.lm * mp.lq / mp.ld] ![0, mp.lm * s e, 0] ![sq, sd, sq] omega s r
  let a := ![a 0 + -mp.lm * mp.re / mp.le * s e, a 1 + 0 * s sd, a 2 + -mp.lm * mp.rs / mp.ld * s sd]
  ![a 0 + mp.lm / mp.le * a 2, a 1 + 0 * a 1, a 2 + mp.lm / mp.ld * a 0]

/-- `np.sign` -/
def sgn (x : K) : K := if 0 < x then 1 else if x < 0 then -1 else 0

/-- the stator frequency (emf_feedforward_ind.py 33–35) -/
def omegaS (mp : Motor.ImParams K) (omega isq psi : K) : K :=
  omega + mp.rr * mp.lm / (mp.lsigr + mp.lm) * isq / max |psi| (1 / 10000) * sgn psi

/-- `EMFFeedforwardInd.__call__` (emf_feedforward_ind.py 20–45) with the inductances of parameter_reader.py 116–143 -/
def emfInd (mp : Motor.ImParams K) (omega isd isq psi : K) (r : Fin 2 → K) : Fin 2 → K :=
  let l := (mp.lsigs * mp.lsigr + mp.lsigs * mp.lm + mp.lsigr * mp.lm) / (mp.lsigr + mp.lm)
  let w := omegaS mp omega isq psi
  ![r 0 + w * -l * isq + -mp.lm * mp.rr / (mp.lsigr + mp.lm) ^ 2 * psi,
    r 1 + w * l * isd + omega * mp.lm / (mp.lsigr + mp.lm) * psi]

/-! ## Transformation to abc coordinates -/

/-- Attributes of `AbcTransformation`: `tune` (abc_transformation.py 63–81) sets the factor, but not `_tau`, which remains
`1e-4` of the constructor (line 36). -/
structure Abc where
  factor : ℝ
  tau : ℝ

/-- `tune`: `dead` is the attribute `dead_time` of the converter, if it has one -/
noncomputable def Abc.tune (dead : Option Bool) : Abc := ⟨if dead = some true then 3 / 2 else 1 / 2, 1 / 10000⟩

/-- `_angle_advance` (lines 59–61) -/
noncomputable def Abc.angle (t : Abc) (angle omega : ℝ) : ℝ := angle + t.factor * t.tau * omega

/-- the three phase voltages of `__call__` (line 54) -/
noncomputable def Abc.call (t : Abc) (angle omega : ℝ) (u : Fin 2 → ℝ) : Fin 3 → ℝ :=
  Motor.t32 (Motor.q u (t.angle angle omega))

end GEM.Ctl
