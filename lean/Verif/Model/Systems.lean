import Mathlib.Analysis.SpecialFunctions.Complex.Arg
import Mathlib.Algebra.Order.Floor.Ring
import Verif.Model.Converters
import Verif.Model.Motors
import Verif.Model.Init

/-!
# Physical systems

`src/gym_electric_motor/physical_systems/physical_systems.py`.

Solver, converter and supply are arbitrary objects with the interface the systems use (`Parts`).  All `simulate` methods have
the same shape and differ in a few expressions (`Frame`): `simulate` below is that shape, the instances for the system
classes follow.  The vector handed to the solver is an element of a type `Y`; `GEM.Sys.idx…` are the index lists that
locate its parts in the array.
-/

namespace GEM.Sys

/-! ## The common part -/

/-- Interface of ODE solver, converter and voltage supply.  `integrate s u t` stands for `set_f_params(u)` followed by
`integrate(t)`; the returned array is the `y` of the solver afterwards (solvers.py:99-136, 182-184, 207-219). -/
structure Parts (K Y U A S C P : Type) where
  solverT : S → K
  solverY : S → Y
  integrate : S → U → K → S
  setInitial : S → Y → K → S
  setAction : C → A → K → Call C (List K)
  convert : C → List K → K → Call C (List K)
  iSup : C → List K → Except Err K
  convReset : C → C × List K
  getVoltage : P → K → K → P × List K
  supplyReset : P → P × List K

/-- What the system classes do differently: currents handed to the converter, conversion of the action, solver parameters
in the loop over the switching times and after it, reported physical state (given the ODE state before and after the last
integration, the input voltages and the supply voltages). -/
structure Frame (K Y U A : Type) where
  iIn : Y → List K
  action : Y → A → A
  loopU : Y → List K → Except Err U
  lastU : Y → List K → Except Err U
  report : Y → Y → List K → List K → Except Err (List K)

/-- Attributes `_t`, `_k` and the components. -/
structure St (K S C P : Type) where
  t : K
  k : ℕ
  solver : S
  conv : C
  supply : P

section common

variable {K Y U A S C P : Type} [Field K]

/-- `[u * u_s for u in u_in for u_s in u_sup]` -/
def products (u us : List K) : List K := u.flatMap (fun x => us.map (fun s => x * s))

/-- `state / self._limits`: elementwise, `ValueError` if the shapes do not fit (arrays of length 1 do not occur). -/
def divLimits (state limits : List K) : Except Err (List K) :=
  if state.length = limits.length then .ok (List.zipWith (· / ·) state limits) else .error .value

/-- One piece of constant input: physical_systems.py:178-184, 186-191 (and the corresponding lines of the subclasses).
Returns input voltages, supply voltages. -/
def piece (p : Parts K Y U A S C P) (f : Frame K Y U A) (toU : Y → List K → Except Err U) (st : St K S C P) (tEnd : K) :
    Call (St K S C P) (List K × List K) :=
  let y := p.solverY st.solver
  let i := f.iIn y
  match p.iSup st.conv i with
  | .error e => (st, .error e)
  | .ok is =>
    let (sup, us) := p.getVoltage st.supply st.t is
    let st := { st with supply := sup }
    let (cv, r) := p.convert st.conv i (p.solverT st.solver)
    let st := { st with conv := cv }
    match r with
    | .error e => (st, .error e)
    | .ok u =>
      let uIn := products u us
      match toU y uIn with
      | .error e => (st, .error e)
      | .ok v => ({ st with solver := p.integrate st.solver v tEnd }, .ok (uIn, us))

/-- The loop over `switching_times[:-1]`. -/
def pieces (p : Parts K Y U A S C P) (f : Frame K Y U A) : List K → St K S C P → Call (St K S C P) Unit
  | [], st => (st, .ok ())
  | t :: ts, st => Call.bind (piece p f f.loopU st t) (fun st _ => pieces p f ts st)

/-- `simulate` (physical_systems.py:171-203, 487-525, 619-657, 771-814, 968-1054). -/
def simulate (p : Parts K Y U A S C P) (f : Frame K Y U A) (tau : K) (limits : List K) (st : St K S C P) (a : A) :
    Call (St K S C P) (List K) :=
  let a := f.action (p.solverY st.solver) a
  let (cv, r) := p.setAction st.conv a st.t
  let st := { st with conv := cv }
  match r with
  | .error e => (st, .error e)
  | .ok times =>
    Call.bind (pieces p f times.dropLast st) (fun st _ =>
      let y := p.solverY st.solver
      Call.bind (piece p f f.lastU st (st.t + tau)) (fun st uv =>
        let st := { st with t := p.solverT st.solver, k := st.k + 1 }
        (st, (f.report y (p.solverY st.solver) uv.1 uv.2).bind (fun s => divLimits s limits))))

/-- `reset` (physical_systems.py:256-287, 527-561, 659-693, 816-847, 1056-1113), after motor and load have delivered the
initial ODE state `y`. `rep` assembles the physical state from `y`, input and supply voltages. -/
def reset (p : Parts K Y U A S C P) (rep : Y → List K → List K → Except Err (List K)) (limits : List K) (st : St K S C P)
    (y : Y) : Call (St K S C P) (List K) :=
  let (sup, us) := p.supplyReset st.supply
  let (cv, u) := p.convReset st.conv
  let st : St K S C P := ⟨0, 0, p.setInitial st.solver y 0, cv, sup⟩
  (st, (rep y (products u us) us).bind (fun s => divLimits s limits))

/-- Several steps, results of the calls; exceptions do not stop the caller. -/
def simulates (p : Parts K Y U A S C P) (f : Frame K Y U A) (tau : K) (limits : List K) (st : St K S C P) (as : List A) :
    St K S C P := as.foldl (fun st a => (simulate p f tau limits st a).1) st

/-! ## DC systems -/

/-- `a[idx] = values` for an index list of length `n` with all positions in range. -/
def assign (n : ℕ) (vals : List K) : Except Err (List K) :=
  if vals.length = n then .ok vals
  else match vals with
    | [x] => .ok (List.replicate n x)
    | _ => .error .value

/-- `a[i]` -/
def getE (l : List K) (i : ℕ) : Except Err K := match l[i]? with | some x => .ok x | none => .error .index

/-- ODE state of a DC system: load and motor part. -/
structure DcY (K : Type) where
  mech : List K
  motor : List K

/-- `DcMotorSystem._build_state_names` (physical_systems.py:295-303). -/
def dcNames (mechNames currents voltages : List String) : List String :=
  mechNames ++ ["torque"] ++ currents ++ voltages ++ ["u_sup"]

/-- Assembly of the state in `SCMLSystem.simulate` (physical_systems.py:194-203).  `currentsIdx` is the motor's
`CURRENTS_IDX`, `nV = len(VOLTAGES)`, `supplyLen` the supply's `voltage_len`.  There is one name `u_sup`, so a second supply
voltage would be written behind the end of the array. -/
def dcReport (torque : List K → K) (currentsIdx : List ℕ) (nV supplyLen : ℕ) (_y y' : DcY K) (uIn us : List K) :
    Except Err (List K) := do
  let cur ← currentsIdx.mapM (getE y'.motor)
  let v ← assign nV uIn
  if 1 < supplyLen then .error .index
  else do
    let s ← assign supplyLen us
    .ok (y'.mech ++ [torque y'.motor] ++ cur ++ v ++ s)

/-- Assembly of the state in `SCMLSystem.reset` (physical_systems.py:278-286): concatenation. -/
def dcResetReport (torque : List K → K) (currentsIdx : List ℕ) (y : DcY K) (uIn us : List K) : Except Err (List K) := do
  let cur ← currentsIdx.mapM (getE y.motor)
  .ok (y.mech ++ [torque y.motor] ++ cur ++ uIn ++ us)

/-- `SCMLSystem.simulate` for DC motors; `iIn` is the motor's `i_in`. -/
def dcFrame (iIn : List K → List K) (torque : List K → K) (currentsIdx : List ℕ) (nV supplyLen : ℕ) : Frame K (DcY K) (List K) A where
  iIn y := iIn y.motor
  action _ a := a
  loopU _ u := .ok u
  lastU _ u := .ok u
  report := dcReport torque currentsIdx nV supplyLen

end common

/-! ## System equation and Jacobian -/

section ode

variable {K : Type} [Field K] {n m : ℕ}

/-- `_system_equation` (physical_systems.py:205-236): the array returned; `scratch` is `_system_eq_placeholder` when it
exists already. The load's ODE sees the load states and the torque, the motor's ODE the motor states, the input and the
speed. -/
def systemEquation {U : Type} (mechOde : K → (Fin n → K) → K → Fin n → K) (torque : (Fin m → K) → K)
    (elOde : (Fin m → K) → U → K → Fin m → K) (omegaIdx : Fin n) (scratch : Option (Fin (n + m) → K)) (t : K)
    (state : Fin (n + m) → K) (u : U) : Fin (n + m) → K :=
  let load : Fin n → K := fun i => state (Fin.castAdd m i)
  let motor : Fin m → K := fun i => state (Fin.natAdd n i)
  match scratch with
  | none => Fin.append (mechOde t load (torque motor)) (elOde motor u (load omegaIdx))
  | some old => fun i =>
    if h : i.val < n then mechOde t load (torque motor) ⟨i.val, h⟩
    else if h2 : i.val - n < m then elOde motor u (load omegaIdx) ⟨i.val - n, h2⟩ else old i

/-- `_system_jacobian` (physical_systems.py:238-254): the assignments to blocks of a zero matrix, in order; the last one that
hits an entry decides. -/
def systemJacobian (loadJac : Fin n → Fin n → K) (loadOverTorque : Fin n → K) (motorJac : Fin m → Fin m → K)
    (elOverOmega torqueOverEl : Fin m → K) (omegaIdx : Fin n) (i j : Fin (n + m)) : K :=
  if hi : i.val < n then
    if hj : n ≤ j.val then loadOverTorque ⟨i.val, hi⟩ * torqueOverEl ⟨j.val - n, by omega⟩
    else loadJac ⟨i.val, hi⟩ ⟨j.val, by omega⟩
  else if j.val = omegaIdx.val then elOverOmega ⟨i.val - n, by omega⟩
  else if hj : n ≤ j.val then motorJac ⟨i.val - n, by omega⟩ ⟨j.val - n, by omega⟩
  else 0

end ode

/-! ## Indices of the ODE vector -/

/-- `SCMLSystem._set_indices` (physical_systems.py:145-153): load states, currents (= motor states). -/
def idxLoad (nLoad : ℕ) : List ℕ := List.range nLoad
/-- `_ode_currents_idx` of the base class, from `_load_ode_idx[-1] + 1`. -/
def idxCurrents (nLoad nCur : ℕ) : List ℕ := (List.range nCur).map ((idxLoad nLoad).getLastD 0 + 1 + ·)
/-- `_motor_ode_idx` of synchronous systems (physical_systems.py:464-474, 596-606): one more position for the angle. -/
def idxSyncMotor (nLoad nCur : ℕ) : List ℕ :=
  idxCurrents nLoad nCur ++ [(idxCurrents nLoad nCur).getLastD 0 + 1]
/-- `_ode_currents_idx` of synchronous systems: `_motor_ode_idx[:-1]`. -/
def idxSyncCurrents (nLoad nCur : ℕ) : List ℕ := (idxSyncMotor nLoad nCur).dropLast
/-- `_ode_epsilon_idx = _motor_ode_idx[-1]`. -/
def idxSyncEps (nLoad nCur : ℕ) : ℕ := (idxSyncMotor nLoad nCur).getLastD 0
/-- `_motor_ode_idx` of induction systems (physical_systems.py:739-744, 920-925): currents, two fluxes, angle. -/
def idxImMotor (nLoad : ℕ) : List ℕ :=
  let a := idxCurrents nLoad 2
  let b := a ++ (List.range 2).map (a.getLastD 0 + 1 + ·)
  b ++ [b.getLastD 0 + 1]
/-- `_ode_currents_idx = _motor_ode_idx[0:2]` (physical_systems.py:746-748). -/
def idxImCurrents (nLoad : ℕ) : List ℕ := ((idxImMotor nLoad).drop 0).take 2
/-- `_ode_flux_idx = _motor_ode_idx[2:4]` (physical_systems.py:749-751). -/
def idxImFlux (nLoad : ℕ) : List ℕ := ((idxImMotor nLoad).drop 2).take 2

/-- `a[idx]` for an index list. -/
def pick {K : Type} (y : List K) (idx : List ℕ) : List (Option K) := idx.map (y[·]?)

/-! ## Three-phase systems -/

open Real GEM.Motor

noncomputable section

/-- The angle as reported by `simulate` (physical_systems.py:520-522, 652-654, 809-811, 1034-1036): Python's `%`, then the
upper half is shifted down. -/
def wrap (e : ℝ) : ℝ :=
  let r := e - 2 * π * ⌊e / (2 * π)⌋
  if π < r then r - 2 * π else r

/-- The angle as reported by `reset` (physical_systems.py:537-539, 669-671, 831-835, 1071-1078). -/
def wrapReset (e : ℝ) : ℝ := if π < e then e - 2 * π else e

/-- `abc_to_dq_space` (physical_systems.py:351-366). -/
def abcToDq (v : Fin 3 → ℝ) (eps : ℝ) : Fin 2 → ℝ := qInv (t23 v) eps
/-- `dq_to_abc_space` (physical_systems.py:368-382). -/
def dqToAbc (v : Fin 2 → ℝ) (eps : ℝ) : Fin 3 → ℝ := t32 (q v eps)
/-- `normed_epsilon=True` (physical_systems.py:363-364 and the other transforms). -/
def dqToAbcNormed (v : Fin 2 → ℝ) (eps : ℝ) : Fin 3 → ℝ := dqToAbc v (eps * π)
/-- `normed_epsilon=True`. -/
def abcToDqNormed (v : Fin 3 → ℝ) (eps : ℝ) : Fin 2 → ℝ := abcToDq v (eps * π)

/-- Three numbers of a list as a vector; `np.matmul` with another length raises `ValueError`. -/
def three (l : List ℝ) : Except Err (Fin 3 → ℝ) :=
  match l with
  | [a, b, c] => .ok ![a, b, c]
  | _ => .error .value

/-- Entries of a 2-vector. -/
def l2 (v : Fin 2 → ℝ) : List ℝ := [v 0, v 1]
/-- Entries of a 3-vector. -/
def l3 (v : Fin 3 → ℝ) : List ℝ := [v 0, v 1, v 2]

/-- ODE state of PMSM and SynRM systems. -/
structure SyncY where
  mech : List ℝ
  i : Fin 2 → ℝ
  eps : ℝ

/-- `SynchronousMotorSystem._build_state_names` (physical_systems.py:444-460). -/
def syncNames (mechNames : List String) : List String :=
  mechNames ++ ["torque", "i_a", "i_b", "i_c", "i_sd", "i_sq", "u_a", "u_b", "u_c", "u_sd", "u_sq", "epsilon", "u_sup"]

/-- `SynchronousMotorSystem.simulate` (physical_systems.py:487-525); `dq` is `control_space == "dq"`. An action of the
wrong length in dq space makes the rotation raise `ValueError`, represented here by an action no converter accepts (`[]`). -/
def syncFrame (torque : SyncY → ℝ) (dq : Bool) : Frame ℝ SyncY (Fin 2 → ℝ) (List ℝ) where
  iIn y := l3 (dqToAbc y.i y.eps)
  action y a := if dq then (match a with | [d, q] => l3 (dqToAbc ![d, q] y.eps) | _ => []) else a
  loopU y u := (three u).map (fun v => abcToDq v y.eps)
  lastU y u := (three u).map (fun v => abcToDq v y.eps)
  report y y' u us := (three u).map (fun v =>
    y'.mech ++ [torque y'] ++ l3 (dqToAbc y'.i y.eps) ++ l2 y'.i ++ u ++ l2 (abcToDq v y.eps) ++ [wrap y'.eps] ++ us)

/-- `SynchronousMotorSystem.reset` (physical_systems.py:535-561). -/
def syncReset (torque : SyncY → ℝ) (y : SyncY) (u us : List ℝ) : Except Err (List ℝ) :=
  let eps := wrapReset y.eps
  (three u).map (fun v =>
    y.mech ++ [torque y] ++ l3 (dqToAbc y.i eps) ++ l2 y.i ++ u ++ l2 (abcToDq v eps) ++ [eps] ++ us)

/-- ODE state of EESM systems. -/
structure EesmY where
  mech : List ℝ
  i : Fin 2 → ℝ
  ie : ℝ
  eps : ℝ

/-- `ExternallyExcitedSynchronousMotorSystem._build_state_names` (physical_systems.py:574-592). -/
def eesmNames (mechNames : List String) : List String :=
  mechNames ++ ["torque", "i_a", "i_b", "i_c", "i_sd", "i_sq", "i_e", "u_a", "u_b", "u_c", "u_sd", "u_sq", "u_e",
    "epsilon", "u_sup"]

/-- `ExternallyExcitedSynchronousMotorSystem.simulate` (physical_systems.py:619-657). The loop over the switching times uses
`u_in[:2]` (line 632), the rest `u_in[:3]`. Two phases cannot be transformed, so line 632 raises and the concatenation in
line 637 is never reached. -/
def eesmFrame (torque : EesmY → ℝ) : Frame ℝ EesmY (List ℝ) (List ℝ) where
  iIn y := l3 (dqToAbc y.i y.eps) ++ [y.ie]
  action _ a := a
  loopU y u := (three (u.take 2)).map (fun v => l2 (abcToDq v y.eps) ++ u.drop 2)
  lastU y u := (three (u.take 3)).map (fun v => l2 (abcToDq v y.eps) ++ u.drop 3)
  report y y' u us := (three (u.take 3)).map (fun v =>
    y'.mech ++ [torque y'] ++ l3 (dqToAbc y'.i y.eps) ++ l2 y'.i ++ [y'.ie] ++ u.take 3 ++ l2 (abcToDq v y.eps) ++ u.drop 3 ++
      [wrap y'.eps] ++ us)

/-- `ExternallyExcitedSynchronousMotorSystem.reset` (physical_systems.py:667-693): all converter voltages, then `u_dq`. -/
def eesmReset (torque : EesmY → ℝ) (y : EesmY) (u us : List ℝ) : Except Err (List ℝ) :=
  let eps := wrapReset y.eps
  (three (u.take 3)).map (fun v =>
    y.mech ++ [torque y] ++ l3 (dqToAbc y.i eps) ++ l2 y.i ++ [y.ie] ++ u ++ l2 (abcToDq v eps) ++ [eps] ++ us)

/-- ODE state of induction motor systems: stator current and rotor flux in alpha/beta coordinates, electrical angle. -/
structure ImY where
  mech : List ℝ
  i : Fin 2 → ℝ
  psi : Fin 2 → ℝ
  eps : ℝ

/-- `calculate_field_angle` (physical_systems.py:765-769, 947-952): `np.arctan2(psi_rbeta, psi_ralpha)`. Signed zeros are not
modelled. -/
def ImY.field (y : ImY) : ℝ := Complex.arg ⟨y.psi 0, y.psi 1⟩

/-- `SquirrelCageInductionMotorSystem._build_state_names` (physical_systems.py:719-735). -/
def scimNames (mechNames : List String) : List String :=
  mechNames ++ ["torque", "i_sa", "i_sb", "i_sc", "i_sd", "i_sq", "u_sa", "u_sb", "u_sc", "u_sd", "u_sq", "epsilon", "u_sup"]

/-- `SquirrelCageInductionMotorSystem.simulate` (physical_systems.py:771-814). -/
def scimFrame (torque : ImY → ℝ) (dq : Bool) : Frame ℝ ImY (Fin 2 → ℝ) (List ℝ) where
  iIn y := l3 (t32 y.i)
  action y a := if dq then (match a with | [d, q] => l3 (dqToAbc ![d, q] y.field) | _ => []) else a
  loopU _ u := (three u).map t23
  lastU _ u := (three u).map t23
  report y y' u us := (three u).map (fun v =>
    let idq := qInv y'.i y.field
    y'.mech ++ [torque y'] ++ l3 (dqToAbc idq y.field) ++ l2 idq ++ u ++ l2 (abcToDq v y.field) ++ [wrap y'.eps] ++ us)

/-- `SquirrelCageInductionMotorSystem.reset` (physical_systems.py:828-847). -/
def scimReset (torque : ImY → ℝ) (y : ImY) (u us : List ℝ) : Except Err (List ℝ) :=
  (three u).map (fun v =>
    let idq := qInv y.i y.field
    y.mech ++ [torque y] ++ l3 (dqToAbc idq y.field) ++ l2 idq ++ u ++ l2 (abcToDq v y.field) ++ [wrapReset y.eps] ++ us)

/-- `DoublyFedInductionMotorSystem._build_state_names` (physical_systems.py:889-916). -/
def dfimNames (mechNames : List String) : List String :=
  mechNames ++ ["torque", "i_sa", "i_sb", "i_sc", "i_sd", "i_sq", "i_ra", "i_rb", "i_rc", "i_rd", "i_rq",
    "u_sa", "u_sb", "u_sc", "u_sd", "u_sq", "u_ra", "u_rb", "u_rc", "u_rd", "u_rq", "epsilon", "u_sup"]

/-- `calculate_rotor_current` (physical_systems.py:954-966), stator-fixed coordinates. -/
def rotorCurrent (lm lsigr : ℝ) (y : ImY) : Fin 2 → ℝ :=
  let lr := lm + lsigr
  ![1 / lr * y.psi 0 - lm / lr * y.i 0, 1 / lr * y.psi 1 - lm / lr * y.i 1]

/-- Solver parameters of the doubly fed system (physical_systems.py:994-1001, 1013-1021): stator and rotor voltages in
stator-fixed coordinates. Stator voltages are entries 0-2, rotor voltages entries 3-5 (physical_systems.py:862-872 with two
three-phase converters). -/
def dfimU (y : ImY) (u : List ℝ) : Except Err ((Fin 2 → ℝ) × (Fin 2 → ℝ)) := do
  let us ← three ((u.drop 0).take 3)
  let ur ← three ((u.drop 3).take 3)
  let urdq := abcToDq ur (y.field - y.eps)
  .ok (t23 us, q urdq y.field)

/-- `DoublyFedInductionMotorSystem.simulate` (physical_systems.py:968-1054). -/
def dfimFrame (lm lsigr : ℝ) (torque : ImY → ℝ) : Frame ℝ ImY ((Fin 2 → ℝ) × (Fin 2 → ℝ)) (List ℝ) where
  iIn y := l3 (t32 y.i) ++ l3 (t32 (rotorCurrent lm lsigr y))
  action _ a := a
  loopU := dfimU
  lastU := dfimU
  report y y' u us := do
    let vs ← three ((u.drop 0).take 3)
    let vr ← three ((u.drop 3).take 3)
    let isdq := qInv y'.i y.field
    let irdq := qInv (rotorCurrent lm lsigr y') y.field
    .ok (y'.mech ++ [torque y'] ++ l3 (dqToAbc isdq y.field) ++ l2 isdq ++ l3 (dqToAbc irdq (y.field - y.eps)) ++ l2 irdq ++
      l3 vs ++ l2 (abcToDq vs y.field) ++ l3 vr ++ l2 (abcToDq vr (y.field - y.eps)) ++ [wrap y'.eps] ++ us)

/-- `DoublyFedInductionMotorSystem.reset` (physical_systems.py:1068-1113). -/
def dfimReset (lm lsigr : ℝ) (torque : ImY → ℝ) (y : ImY) (u us : List ℝ) : Except Err (List ℝ) := do
  let eps := wrapReset y.eps
  let field := wrapReset y.field
  let vs ← three ((u.drop 0).take 3)
  let vr ← three ((u.drop 3).take 3)
  let isdq := qInv y.i field
  let irdq := qInv (rotorCurrent lm lsigr y) (field - eps)
  .ok (y.mech ++ [torque y] ++ l3 (dqToAbc isdq field) ++ l2 isdq ++ l3 (dqToAbc irdq (field - eps)) ++ l2 irdq ++
    l3 vs ++ l2 (abcToDq vs field) ++ l3 vr ++ l2 (abcToDq vr (field - eps)) ++ [eps] ++ us)

end

end GEM.Sys
