import Mathlib.Analysis.SpecialFunctions.Complex.Arg
import Verif.Model.Classic
import Verif.Model.Systems

/-!
# The classic controllers of the examples: field oriented controllers

`examples/classic_controllers/controllers/`: `foc_controller.py`, `cascaded_foc_controller.py`, `induction_motor_foc.py`,
`induction_motor_cascaded_foc.py`, `flux_observer.py`.

Arrays are functions of the index as in Model/Classic.lean.  The conversion of torques to currents
(`torque_to_current_conversion.py`, `induction_motor_torque_to_current_conversion.py`) is a parameter, see Model/ClassicTorque.lean; plots are left out;
`np.complex(a, b)` is the complex number (numpy has no `np.complex` since 1.24).
-/

namespace GEM.Classic

open GEM GEM.Sys GEM.Motor

noncomputable section

/-! ## Voltages of three phases -/

/-- largest of three numbers -/
def max3 (v : Fin 3 → ℝ) : ℝ := max (max (v 0) (v 1)) (v 2)

/-- smallest of three numbers -/
def min3 (v : Fin 3 → ℝ) : ℝ := min (min (v 0) (v 1)) (v 2)

/-- "Shifting the reference potential" (foc_controller.py 162, cascaded_foc_controller.py 258) -/
def shifted (v : Fin 3 → ℝ) : Fin 3 → ℝ := fun j => v j - 1 / 2 * (max3 v + min3 v)

/-- `np.clip(action, low, high)` with one bound for all phases -/
def clip3 (lo hi : ℝ) (v : Fin 3 → ℝ) : Fin 3 → ℝ := fun j => clip (v j) lo hi

open Classical in
/-- "Check limit and integrate" (foc_controller.py 164–174, cascaded_foc_controller.py 260–271): both controllers integrate if nothing is
clipped. -/
def integrated (v w : Fin 3 → ℝ) (st : Cont ℝ × Cont ℝ) (d q : ℝ × ℝ) : Cont ℝ × Cont ℝ :=
  if w = v then (st.1.integrate d.1 d.2, st.2.integrate q.1 q.2) else st

/-! ## Synchronous motors -/

/-- Attributes of the field oriented controllers that never change (foc_controller.py 36–60, cascaded_foc_controller.py 31–68): indices of
the states, limits, parameters of the motor; `advance` is `dead_time`, `lim` is the factor in the decoupling of the q axis that belongs
to `i_sd`: `limit[i_sd_idx]` (foc_controller.py 140), or `limit[u_sd_idx]` (cascaded_foc_controller.py 229). -/
structure Foc where
  iSd : ℕ
  iSq : ℕ
  omega : ℕ
  eps : ℕ
  limSd : ℝ
  limSq : ℝ
  limUd : ℝ
  limUq : ℝ
  limOmega : ℝ
  limEps : ℝ
  lim : ℝ
  p : ℝ
  lD : ℝ
  lQ : ℝ
  psi : ℝ
  advance : ℝ
  tau : ℝ
  lo : ℝ
  hi : ℝ
  decoupling : Bool

/-- `epsilon_d` (foc_controller.py 107–115, cascaded_foc_controller.py 168–175) -/
def Foc.angle (c : Foc) (s : ℕ → ℝ) : ℝ := s c.eps * c.limEps + c.advance * c.tau * s c.omega * c.limOmega * c.p

/-- `u_sd_0`, `u_sq_0` (foc_controller.py 119–141, cascaded_foc_controller.py 212–234); 0 without decoupling -/
def Foc.coupling (c : Foc) (s : ℕ → ℝ) : Fin 2 → ℝ :=
  if c.decoupling then
    ![-s c.omega * c.p * c.lQ * s c.iSq * c.limSq / c.limUd * c.limOmega,
      s c.omega * c.p * (s c.iSd * c.lD * c.lim + c.psi) / c.limUq * c.limOmega]
  else ![0, 0]

/-- The continuous current control (foc_controller.py 117–174, cascaded_foc_controller.py 211–271) for the references `rd`, `rq`. -/
def Foc.currents (c : Foc) (st : Cont ℝ × Cont ℝ) (s : ℕ → ℝ) (rd rq : ℝ) : (Cont ℝ × Cont ℝ) × (Fin 3 → ℝ) :=
  let d := st.1.control (s c.iSd) rd
  let q := st.2.control (s c.iSq) rq
  let v := shifted (t32 (Motor.q ![d.2 + c.coupling s 0, q.2 + c.coupling s 1] (c.angle s)))
  let w := clip3 c.lo c.hi v
  (integrated v w (d.1, q.1) (s c.iSd, rd) (s c.iSq, rq), w)

/-- The discrete current control (foc_controller.py 176–187, cascaded_foc_controller.py 274–281): `abc` are the indices of the phase
currents. -/
def Foc.switching (c : Foc) (abc : Fin 3 → ℕ) (st : Fin 3 → Disc ℝ) (s : ℕ → ℝ) (rd rq : ℝ) : (Fin 3 → Disc ℝ) × ℤ :=
  let r := t32 (Motor.q ![rd, rq] (c.angle s))
  let a := fun j => (st j).control (s (abc j)) (r j)
  (fun j => (a j).1, 4 * (a 0).2 + 2 * (a 1).2 + (a 2).2)

/-- `FieldOrientedController.control` (foc_controller.py 95–188) with continuous actions; `refD`, `refQ` are the indices of the references -/
def Foc.control (c : Foc) (refD refQ : ℕ) (st : Cont ℝ × Cont ℝ) (s reference : ℕ → ℝ) : (Cont ℝ × Cont ℝ) × (Fin 3 → ℝ) :=
  c.currents st s (reference refD) (reference refQ)

/-- `reset` (foc_controller.py 195–199) with continuous actions -/
def focReset (st : Cont ℝ × Cont ℝ) : Cont ℝ × Cont ℝ := (st.1.reset, st.2.reset)

/-- `FieldOrientedController.control` with discrete actions -/
def Foc.controlDisc (c : Foc) (abc : Fin 3 → ℕ) (refD refQ : ℕ) (st : Fin 3 → Disc ℝ) (s reference : ℕ → ℝ) : (Fin 3 → Disc ℝ) × ℤ :=
  c.switching abc st s (reference refD) (reference refQ)

/-- `reset` (foc_controller.py 195–199) with discrete actions does nothing -/
def focResetDisc (st : Fin 3 → Disc ℝ) : Fin 3 → Disc ℝ := st

/-- What the reference of a `CascadedFieldOrientedController` is for (cascaded_foc_controller.py 52–59). -/
inductive Task
  | current | torque | speed
deriving DecidableEq

/-- Conversion of a torque to the references of `i_sq` and `i_sd`, in this order (cascaded_foc_controller.py 206–208). -/
structure Conversion (θ : Type) where
  control : θ → (ℕ → ℝ) → ℝ → θ × ℝ × ℝ
  reset : θ → θ

/-- Limits of the overlaid controller (cascaded_foc_controller.py 186–203): `low`, `high` of the torque in the state space, nominal value
and limit. -/
structure Overlaid where
  omega : ℕ
  low : ℝ
  high : ℝ
  nominal : ℝ
  limit : ℝ

/-- One overlaid controller (cascaded_foc_controller.py 178–203, induction_motor_cascaded_foc.py 165–190), the number of the automatic
design: the reference of the torque.  Integrated inside 0.85 times the state space, clipped to the nominal values outside.  A discrete
controller is clipped always. -/
def Overlaid.control (o : Overlaid) (st : Stage ℝ) (s : ℕ → ℝ) (reference : ℝ) : Stage ℝ × ℝ :=
  let y := st.control (s o.omega) reference
  let c := clip y.2 (o.nominal / o.limit * o.low) (o.nominal / o.limit * o.high)
  match y.1 with
  | .cont x => if 85 / 100 * o.low ≤ y.2 ∧ y.2 ≤ 85 / 100 * o.high then (.cont (x.integrate (s o.omega) reference), y.2) else (.cont x, c)
  | .disc x => (.disc x, c)

/-- State of a cascaded field oriented controller: current controllers, overlaid controller, conversion of torques. -/
abbrev CascadedFoc (φ θ : Type) := φ × Stage ℝ × θ

/-- Lines 166–208 of cascaded_foc_controller.py: the references of `i_sd` and `i_sq`.  For current control the array `ref` has two
entries, of which the last one gets `reference[0]` and the first one, which is the reference of `i_sq`, stays 0. -/
def cascadedRefs {φ θ : Type} (task : Task) (o : Overlaid) (conv : Conversion θ) (refD : ℕ) (st : CascadedFoc φ θ)
    (s reference : ℕ → ℝ) : (Stage ℝ × θ) × ℝ × ℝ :=
  match task with
  | .current => ((st.2.1, st.2.2), reference refD, 0)
  | .torque =>
    let t := conv.control st.2.2 s (reference 0 * o.limit)
    ((st.2.1, t.1), t.2.2, t.2.1)
  | .speed =>
    let y := o.control st.2.1 s (reference 0)
    let t := conv.control st.2.2 s (y.2 * o.limit)
    ((y.1, t.1), t.2.2, t.2.1)

/-- `CascadedFieldOrientedController.control` (cascaded_foc_controller.py 154–291) with continuous actions -/
def Foc.cascaded {θ : Type} (c : Foc) (task : Task) (o : Overlaid) (conv : Conversion θ) (refD : ℕ)
    (st : CascadedFoc (Cont ℝ × Cont ℝ) θ) (s reference : ℕ → ℝ) : CascadedFoc (Cont ℝ × Cont ℝ) θ × (Fin 3 → ℝ) :=
  let r := cascadedRefs task o conv refD st s reference
  let a := c.currents st.1 s r.2.1 r.2.2
  ((a.1, r.1), a.2)

/-- the same with discrete actions -/
def Foc.cascadedDisc {θ : Type} (c : Foc) (abc : Fin 3 → ℕ) (task : Task) (o : Overlaid) (conv : Conversion θ) (refD : ℕ)
    (st : CascadedFoc (Fin 3 → Disc ℝ) θ) (s reference : ℕ → ℝ) : CascadedFoc (Fin 3 → Disc ℝ) θ × ℤ :=
  let r := cascadedRefs task o conv refD st s reference
  let a := c.switching abc st.1 s r.2.1 r.2.2
  ((a.1, r.1), a.2)

/-- `reset` (cascaded_foc_controller.py 299–313); `inner` resets the current controllers -/
def cascadedFocReset {φ θ : Type} (inner : φ → φ) (task : Task) (conv : Conversion θ) (st : CascadedFoc φ θ) : CascadedFoc φ θ :=
  (inner st.1, if task = .speed then st.2.1.reset else st.2.1, if task = .current then st.2.2 else conv.reset st.2.2)

/-! ## Induction motors -/

/-- Attributes of a `FluxObserver` (flux_observer.py 10–30) -/
structure Flux where
  lm : ℝ
  lr : ℝ
  rr : ℝ
  p : ℝ
  tau : ℝ
  abc : Fin 3 → ℕ
  omega : ℕ

/-- the new value of `integrated` in `estimate` (flux_observer.py 32–57); `s` is the state in physical units -/
def Flux.estimate (f : Flux) (psi : ℂ) (s : ℕ → ℝ) : ℂ :=
  let i := t23 fun j => s (f.abc j)
  let delta := (⟨i 0, i 1⟩ : ℂ) * f.rr * f.lm / f.lr - psi * (⟨f.rr / f.lr, -(s f.omega * f.p)⟩ : ℂ)
  psi + delta * f.tau

/-- Attributes of the controllers of induction motors that never change (induction_motor_foc.py 15–58) -/
structure ImFoc where
  iSd : ℕ
  iSq : ℕ
  omega : ℕ
  abc : Fin 3 → ℕ
  limits : ℕ → ℝ
  p : ℝ
  rs : ℝ
  rr : ℝ
  lm : ℝ
  lr : ℝ
  ls : ℝ
  lo : ℝ
  hi : ℝ
  decoupling : Bool
  flux : Flux

/-- `sigma` (induction_motor_foc.py 51) -/
def ImFoc.sigma (c : ImFoc) : ℝ := (c.ls * c.lr - c.lm ^ 2) / (c.ls * c.lr)

/-- `u_sd_0`, `u_sq_0` (induction_motor_foc.py 109–136, induction_motor_cascaded_foc.py 201–225) for a state `s` in physical units and
the magnitude `psi` of the flux -/
def ImFoc.coupling (c : ImFoc) (s : ℕ → ℝ) (psi : ℝ) : Fin 2 → ℝ :=
  let omegaS := s c.omega + c.rr * c.lm / c.lr * s c.iSq / max |psi| (1 / 10000) * SignType.sign psi
  if c.decoupling then
    ![-omegaS * c.sigma * c.ls * s c.iSq - c.lm * c.rr / c.lr ^ 2 * psi,
      omegaS * c.sigma * c.ls * s c.iSd + s c.omega * c.lm / c.lr * psi]
  else ![0, 0]

/-- The current control (induction_motor_foc.py 104–155, induction_motor_cascaded_foc.py 199–242): normalised state, references of the
currents in physical units, estimated flux. -/
def ImFoc.currents (c : ImFoc) (st : Cont ℝ × Cont ℝ) (s : ℕ → ℝ) (rd rq : ℝ) (psi : ℂ) : (Cont ℝ × Cont ℝ) × (Fin 3 → ℝ) :=
  let x := fun i => s i * c.limits i
  let d := st.1.control (x c.iSd) rd
  let q := st.2.control (x c.iSq) rq
  let u := c.coupling x ‖psi‖
  let v := fun j => dqToAbc ![u 0 + d.2, u 1 + q.2] psi.arg j / c.limits (c.abc j)
  let w := clip3 c.lo c.hi v
  (integrated v w (d.1, q.1) (x c.iSd, rd) (x c.iSq, rq), w)

/-- `InductionMotorFieldOrientedController.control` (induction_motor_foc.py 91–160) -/
def ImFoc.control (c : ImFoc) (refD refQ : ℕ) (st : (Cont ℝ × Cont ℝ) × ℂ) (s reference : ℕ → ℝ) :
    ((Cont ℝ × Cont ℝ) × ℂ) × (Fin 3 → ℝ) :=
  let psi := c.flux.estimate st.2 fun i => s i * c.limits i
  let a := c.currents st.1 s (reference refD * c.limits c.iSd) (reference refQ * c.limits c.iSq) psi
  ((a.1, psi), a.2)

/-- `reset` (induction_motor_foc.py 168–172) -/
def imFocReset (st : (Cont ℝ × Cont ℝ) × ℂ) : (Cont ℝ × Cont ℝ) × ℂ := (focReset st.1, 0)

/-- `InductionMotorCascadedFieldOrientedController.control` (induction_motor_cascaded_foc.py 146–252) with continuous actions, for
references of the torque or the speed.  The conversion also gets the magnitude of the flux. -/
def ImFoc.cascaded {θ : Type} (c : ImFoc) (speed : Bool) (o : Overlaid) (conv : ℝ → Conversion θ)
    (st : ((Cont ℝ × Cont ℝ) × ℂ) × Stage ℝ × θ) (s reference : ℕ → ℝ) : (((Cont ℝ × Cont ℝ) × ℂ) × Stage ℝ × θ) × (Fin 3 → ℝ) :=
  let psi := c.flux.estimate st.1.2 fun i => s i * c.limits i
  let r := cascadedRefs (if speed then .speed else .torque) o (conv ‖psi‖) 0 ((), st.2) s reference
  let a := c.currents st.1.1 s (r.2.1 * c.limits c.iSd) (r.2.2 * c.limits c.iSq) psi
  (((a.1, psi), r.1), a.2)

end

end GEM.Classic
