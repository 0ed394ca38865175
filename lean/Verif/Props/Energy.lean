import Mathlib.Analysis.SpecialFunctions.ExpDeriv
import Verif.Props.Convergence

/-!
# C104, C105: energy of whole drives

Motor, polynomial static load and any course of the input voltages, also with jumps.
-/

set_option linter.unusedSectionVars false

namespace GEM.Props

open GEM GEM.Motor GEM.Load GEM.Sys GEM.Spec Set

noncomputable section

variable {m : ℕ} {U : Type}

/-- The balance of power of a motor at one instant, for derivatives in any set (right derivatives where inputs jump): the field
energy `W` changes by input power `P` minus losses minus mechanical power. -/
def LocalBalance (torque : (Fin m → ℝ) → ℝ) (elOde : (Fin m → ℝ) → U → ℝ → Fin m → ℝ) (W loss : (Fin m → ℝ) → ℝ)
    (P : (Fin m → ℝ) → U → ℝ) : Prop :=
  ∀ (x : ℝ → Fin m → ℝ) (u : U) (w : ℝ) (S : Set ℝ) (t : ℝ),
    (∀ i, HasDerivWithinAt (fun τ => x τ i) (elOde (x t) u w i) S t) →
    HasDerivWithinAt (fun τ => W (x τ)) (P (x t) u - loss (x t) - torque (x t) * w) S t

/-! ## The motors -/

def dcW (mp : DcParams ℝ) (x : Fin 2 → ℝ) : ℝ := 1 / 2 * mp.la * x 0 ^ 2 + 1 / 2 * mp.le * x 1 ^ 2
def dcLoss (mp : DcParams ℝ) (x : Fin 2 → ℝ) : ℝ := mp.ra * x 0 ^ 2 + mp.re * x 1 ^ 2
def dcP (x u : Fin 2 → ℝ) : ℝ := u 0 * x 0 + u 1 * x 1
def shuntP (x : Fin 2 → ℝ) (u : Fin 1 → ℝ) : ℝ := u 0 * (x 0 + x 1)
def seriesW (mp : DcParams ℝ) (x : Fin 1 → ℝ) : ℝ := 1 / 2 * (mp.la + mp.le) * x 0 ^ 2
def seriesLoss (mp : DcParams ℝ) (x : Fin 1 → ℝ) : ℝ := (mp.ra + mp.re) * x 0 ^ 2
def oneP (x u : Fin 1 → ℝ) : ℝ := u 0 * x 0
def permExW (mp : PermExParams ℝ) (x : Fin 1 → ℝ) : ℝ := 1 / 2 * mp.la * x 0 ^ 2
def permExLoss (mp : PermExParams ℝ) (x : Fin 1 → ℝ) : ℝ := mp.ra * x 0 ^ 2
def syncW (mp : SyncParams ℝ) (x : Fin 3 → ℝ) : ℝ := 3 / 2 * (1 / 2 * mp.ld * x 0 ^ 2 + 1 / 2 * mp.lq * x 1 ^ 2)
def syncLoss (mp : SyncParams ℝ) (x : Fin 3 → ℝ) : ℝ := 3 / 2 * (mp.rs * (x 0 ^ 2 + x 1 ^ 2))
def syncP (x : Fin 3 → ℝ) (u : Fin 2 → ℝ) : ℝ := 3 / 2 * (u 0 * x 0 + u 1 * x 1)
def eesmLoss (mp : EesmParams ℝ) (x : Fin 4 → ℝ) : ℝ := 3 / 2 * (mp.rs * (x 0 ^ 2 + x 1 ^ 2)) + mp.re * x 2 ^ 2
def eesmP (x : Fin 4 → ℝ) (u : Fin 3 → ℝ) : ℝ := 3 / 2 * (u 0 * x 0 + u 1 * x 1) + u 2 * x 2
/-- stator flux times stator current plus rotor flux times rotor current -/
def imW (mp : ImParams ℝ) (x : Fin 5 → ℝ) : ℝ :=
  3 / 2 * (1 / 2 * (imStatorFlux mp (x 0) (x 2) * x 0 + imStatorFlux mp (x 1) (x 3) * x 1
    + x 2 * imRotorCurrent mp (x 0) (x 2) + x 3 * imRotorCurrent mp (x 1) (x 3)))
def imLoss (mp : ImParams ℝ) (x : Fin 5 → ℝ) : ℝ :=
  3 / 2 * (mp.rs * (x 0 ^ 2 + x 1 ^ 2) + mp.rr * (imRotorCurrent mp (x 0) (x 2) ^ 2 + imRotorCurrent mp (x 1) (x 3) ^ 2))
def scimP (x : Fin 5 → ℝ) (u : Fin 2 → ℝ) : ℝ := 3 / 2 * (u 0 * x 0 + u 1 * x 1)
def dfimP (mp : ImParams ℝ) (x : Fin 5 → ℝ) (u : Matrix (Fin 2) (Fin 2) ℝ) : ℝ :=
  3 / 2 * (u 0 0 * x 0 + u 0 1 * x 1 + u 1 0 * imRotorCurrent mp (x 0) (x 2) + u 1 1 * imRotorCurrent mp (x 1) (x 3))

theorem extEx_balance (mp : DcParams ℝ) (hla : mp.la ≠ 0) (hle : mp.le ≠ 0) :
    LocalBalance (dcTorque mp) (dcOde mp) (dcW mp) (dcLoss mp) dcP := by
  intro x u w S t h
  have h0 := h 0
  have h1 := h 1
  refine (((h0.fun_pow 2).const_mul (1 / 2 * mp.la)).fun_add ((h1.fun_pow 2).const_mul (1 / 2 * mp.le))).congr_deriv ?_
  simp [dcOde_eq, dcTorque, dcP, dcLoss]
  field_simp
  ring

theorem shunt_balance (mp : DcParams ℝ) (hla : mp.la ≠ 0) (hle : mp.le ≠ 0) :
    LocalBalance (dcTorque mp) (shuntOde mp) (dcW mp) (dcLoss mp) shuntP := by
  intro x u w S t h
  have := extEx_balance mp hla hle x ![u 0, u 0] w S t h
  refine this.congr_deriv ?_
  simp [dcP, shuntP]
  ring

theorem series_balance (mp : DcParams ℝ) (hl : mp.la + mp.le ≠ 0) :
    LocalBalance (seriesTorque mp) (seriesOde mp) (seriesW mp) (seriesLoss mp) oneP := by
  intro x u w S t h
  have h0 := h 0
  refine ((h0.fun_pow 2).const_mul (1 / 2 * (mp.la + mp.le))).congr_deriv ?_
  simp [seriesOde_eq, seriesTorque, dcTorque, oneP, seriesLoss]
  field_simp
  ring

theorem permEx_balance (mp : PermExParams ℝ) (hl : mp.la ≠ 0) :
    LocalBalance (permExTorque mp) (permExOde mp) (permExW mp) (permExLoss mp) oneP := by
  intro x u w S t h
  have h0 := h 0
  refine ((h0.fun_pow 2).const_mul (1 / 2 * mp.la)).congr_deriv ?_
  simp [permExOde_eq, permExTorque, oneP, permExLoss]
  field_simp
  ring

theorem pmsm_balance (mp : SyncParams ℝ) (hd : mp.ld ≠ 0) (hq : mp.lq ≠ 0) :
    LocalBalance (pmsmTorque mp) (syncOde (pmsmConstants mp)) (syncW mp) (syncLoss mp) syncP := by
  intro x u w S t h
  have h0 := h 0
  have h1 := h 1
  refine ((((h0.fun_pow 2).const_mul (1 / 2 * mp.ld)).fun_add ((h1.fun_pow 2).const_mul (1 / 2 * mp.lq))).const_mul
    (3 / 2)).congr_deriv ?_
  simp [pmsmOde_eq, pmsmTorque, syncP, syncLoss]
  field_simp
  ring

theorem synrm_balance (mp : SyncParams ℝ) (hd : mp.ld ≠ 0) (hq : mp.lq ≠ 0) :
    LocalBalance (synrmTorque mp) (syncOde (synrmConstants mp)) (syncW mp) (syncLoss mp) syncP := by
  intro x u w S t h
  have h0 := h 0
  have h1 := h 1
  refine ((((h0.fun_pow 2).const_mul (1 / 2 * mp.ld)).fun_add ((h1.fun_pow 2).const_mul (1 / 2 * mp.lq))).const_mul
    (3 / 2)).congr_deriv ?_
  simp [synrmOde_eq, synrmTorque, syncP, syncLoss]
  field_simp
  ring

theorem eesm_balance (mp : EesmParams ℝ) (hd : mp.ld ≠ 0) (hq : mp.lq ≠ 0) (hk : mp.k ≠ 0) (he : mp.le ≠ 0)
    (hs : mp.sigma ≠ 0) :
    LocalBalance (eesmTorque mp) (eesmOde mp) (eesmEnergy mp) (eesmLoss mp) eesmP := by
  intro x u w S t h
  have h0 := h 0
  have h1 := h 1
  have h2 := h 2
  unfold eesmEnergy
  refine ((((((h0.fun_pow 2).const_mul (1 / 2 * mp.ld)).fun_add ((h1.fun_pow 2).const_mul (1 / 2 * mp.lq))).fun_add
    ((h0.const_mul mp.lm).fun_mul h2)).const_mul (3 / 2)).fun_add ((h2.fun_pow 2).const_mul (1 / 2 * mp.le))).congr_deriv ?_
  have hs' : mp.sigma = 1 - 3 / 2 * mp.lm ^ 2 / (mp.ld * mp.le) := by
    unfold EesmParams.sigma EesmParams.lM EesmParams.lE; field_simp
  have hs2 : mp.ld * mp.le * mp.sigma = mp.ld * mp.le - 3 / 2 * mp.lm ^ 2 := by rw [hs']; field_simp
  simp [eesmOde_eq, eesmTorque, eesmLoss, eesmP]
  simp only [EesmParams.lM, EesmParams.rE, EesmParams.lE, EesmParams.ik]
  generalize mp.sigma = sg at *
  have h2s : 2 * mp.ld * mp.le - 3 * mp.lm ^ 2 = 2 * (mp.ld * mp.le * sg) := by rw [hs2]; ring
  field_simp
  linear_combination (3 * x t 0 * u 0 + 3 * x t 0 * mp.lq * mp.p * w * x t 1 - 3 * x t 0 ^ 2 * mp.rs
    - 2 * mp.re * x t 2 ^ 2 + 2 * x t 2 * u 2) * h2s

theorem imW_eq (mp : ImParams ℝ) (hlr : mp.lr ≠ 0) (x : Fin 5 → ℝ) :
    imW mp x = 3 / 4 * (mp.sigma * mp.ls * (x 0 ^ 2 + x 1 ^ 2) + 1 / mp.lr * (x 2 ^ 2 + x 3 ^ 2)) := by
  unfold imW imStatorFlux imRotorCurrent; field_simp; ring

theorem dfim_balance (mp : ImParams ℝ) (hls : mp.ls ≠ 0) (hlr : mp.lr ≠ 0) (hs : mp.sigma ≠ 0) :
    LocalBalance (imTorque mp) (imOde mp) (imW mp) (imLoss mp) (dfimP mp) := by
  intro x u w S t h
  have h0 := h 0
  have h1 := h 1
  have h2 := h 2
  have h3 := h 3
  have e : (fun τ => imW mp (x τ)) = fun t =>
      3 / 4 * (mp.sigma * mp.ls * (x t 0 ^ 2 + x t 1 ^ 2) + 1 / mp.lr * (x t 2 ^ 2 + x t 3 ^ 2)) :=
    funext fun t => imW_eq mp hlr (x t)
  rw [e]
  refine (((((h0.fun_pow 2).fun_add (h1.fun_pow 2)).const_mul (mp.sigma * mp.ls)).fun_add
    (((h2.fun_pow 2).fun_add (h3.fun_pow 2)).const_mul (1 / mp.lr))).const_mul (3 / 4)).congr_deriv ?_
  have hlr' : mp.lm + mp.lsigr = mp.lr := rfl
  simp only [imOde_eq, imTorque, imRotorCurrent, ImParams.tauSig, ImParams.tauR, hlr', dfimP, imLoss]
  simp
  generalize mp.sigma = sg at *
  generalize mp.ls = ls at *
  generalize mp.lr = lr at *
  field_simp
  ring

theorem scim_balance (mp : ImParams ℝ) (hls : mp.ls ≠ 0) (hlr : mp.lr ≠ 0) (hs : mp.sigma ≠ 0) :
    LocalBalance (imTorque mp) (scimOde mp) (imW mp) (imLoss mp) scimP := by
  intro x u w S t h
  have := dfim_balance mp hls hlr hs x !![u 0, u 1; 0, 0] w S t h
  refine this.congr_deriv ?_
  simp [scimP, dfimP]

/-! ## Whole drives -/

/-- the motor's part of the state of a drive -/
def motorPart (s : Fin (1 + m) → ℝ) : Fin m → ℝ := fun i => s (Fin.natAdd 1 i)

/-- the speed of a drive -/
def speed (s : Fin (1 + m) → ℝ) : ℝ := s (Fin.castAdd m 0)

/-- field energy and kinetic energy, all moments of inertia together being `J` -/
def stored (W : (Fin m → ℝ) → ℝ) (J : ℝ) (s : Fin (1 + m) → ℝ) : ℝ := W (motorPart s) + 1 / 2 * J * speed s ^ 2

variable {torque : (Fin m → ℝ) → ℝ} {elOde : (Fin m → ℝ) → U → ℝ → Fin m → ℝ} {W loss : (Fin m → ℝ) → ℝ}
  {P : (Fin m → ℝ) → U → ℝ}

theorem drive_balance_at (hb : LocalBalance torque elOde W loss P) {a b c j tau : ℝ} {rs : List ℝ}
    (hp : PolyParams a b c j tau rs) {u : U} {s : ℝ → Fin (1 + m) → ℝ} {S : Set ℝ} {t : ℝ}
    (hs : ∀ i, HasDerivWithinAt (fun t => s t i) (systemEquation (polyMech a b c j tau rs) torque elOde 0 none t (s t) u i) S t) :
    HasDerivWithinAt (fun t => stored W (j + rs.sum) (s t))
      (P (motorPart (s t)) u - loss (motorPart (s t))
        - speed (s t) * friction a b c ((j + rs.sum) / tau) (speed (s t))) S t := by
  have hJ : 0 < j + rs.sum := by
    have : 0 ≤ rs.sum := List.sum_nonneg hp.rotors
    linarith [hp.j]
  have h1 := hb (fun τ => motorPart (s τ)) u (speed (s t)) S t ?_
  · have h2 := hs (Fin.castAdd m 0)
    have e : systemEquation (polyMech a b c j tau rs) torque elOde 0 none t (s t) u (Fin.castAdd m 0)
        = (torque (motorPart (s t)) - friction a b c ((j + rs.sum) / tau) (speed (s t))) / (j + rs.sum) := by
      simp only [systemEquation, Fin.append_left, polyMech, Poly.mechanicalOde, c25_friction hp, Matrix.cons_val_zero,
        (polyOf_fields a b c tau rs j).2.2.2.2]
      rfl
    rw [e] at h2
    have h3 := h1.fun_add ((h2.fun_pow 2).const_mul (1 / 2 * (j + rs.sum)))
    refine h3.congr_deriv ?_
    have e2 : s t (Fin.castAdd m 0) = speed (s t) := rfl
    rw [e2]
    generalize friction a b c ((j + rs.sum) / tau) (speed (s t)) = fr
    push_cast
    field_simp
    ring
  · intro i
    have := hs (Fin.natAdd 1 i)
    simp only [systemEquation, Fin.append_right] at this
    exact this

theorem drive_balance (hb : LocalBalance torque elOde W loss P) {a b c j tau : ℝ} {rs : List ℝ} (hp : PolyParams a b c j tau rs)
    {u : ℝ → U} {s : ℝ → Fin (1 + m) → ℝ} (hs : Runs (systemEquation (polyMech a b c j tau rs) torque elOde 0 none) u s)
    {t : ℝ} (ht : 0 ≤ t) :
    HasDerivWithinAt (fun t => stored W (j + rs.sum) (s t))
      (P (motorPart (s t)) (u t) - loss (motorPart (s t))
        - speed (s t) * friction a b c ((j + rs.sum) / tau) (speed (s t))) (Ici t) t :=
  drive_balance_at hb hp fun i => (hs i).2 t ht

theorem stored_continuous (hW : Continuous W) {rhs} {u : ℝ → U} {s : ℝ → Fin (1 + m) → ℝ} (hs : Runs rhs u s) (J : ℝ) :
    ContinuousOn (fun t => stored W J (s t)) (Ici 0) := by
  have h1 : ContinuousOn (fun t => motorPart (s t)) (Ici 0) := continuousOn_pi.2 fun i => (hs (Fin.natAdd 1 i)).1
  have h2 : ContinuousOn (fun t => speed (s t)) (Ici 0) := (hs (Fin.castAdd m 0)).1
  exact (hW.comp_continuousOn h1).add (continuousOn_const.mul (h2.pow 2))

/-- A drive never delivers more energy than it has stored and received: for every polynomial static load, every course of the
inputs and every motion, the stored energy grows at most by the energy `E` supplied. -/
def NeverCreatesEnergy (torque : (Fin m → ℝ) → ℝ) (elOde : (Fin m → ℝ) → U → ℝ → Fin m → ℝ) (W : (Fin m → ℝ) → ℝ)
    (P : (Fin m → ℝ) → U → ℝ) : Prop :=
  ∀ (a b c j tau : ℝ) (rs : List ℝ), PolyParams a b c j tau rs → ∀ (u : ℝ → U) (s : ℝ → Fin (1 + m) → ℝ),
    Runs (systemEquation (polyMech a b c j tau rs) torque elOde 0 none) u s → ∀ E : ℝ → ℝ, ContinuousOn E (Ici 0) →
    (∀ t, 0 ≤ t → HasDerivWithinAt E (P (motorPart (s t)) (u t)) (Ici t) t) → ∀ t, 0 ≤ t →
    stored W (j + rs.sum) (s t) ≤ stored W (j + rs.sum) (s 0) + (E t - E 0)

theorem friction_opposes {a b c j tau : ℝ} {rs : List ℝ} (hp : PolyParams a b c j tau rs) (w : ℝ) :
    0 ≤ w * friction a b c ((j + rs.sum) / tau) w := by
  rw [← c25_friction hp]
  exact c25_opposes hp w

theorem never_creates (hb : LocalBalance torque elOde W loss P) (hW : Continuous W) (hl : ∀ x, 0 ≤ loss x) :
    NeverCreatesEnergy torque elOde W P := by
  intro a b c j tau rs hp u s hs E hE hE' t ht
  have key := stays_nonneg (f := fun t => E t - E 0 - (stored W (j + rs.sum) (s t) - stored W (j + rs.sum) (s 0)))
    ((hE.sub continuousOn_const).sub ((stored_continuous hW hs _).sub continuousOn_const))
    (fun t ht => ((hE' t ht).sub_const _).sub ((drive_balance hb hp hs ht).sub_const _)) (by simp) ?_ t ht
  · linarith
  · intro t _ _
    have h1 := hl (motorPart (s t))
    have h2 := friction_opposes hp (speed (s t))
    linarith

variable {a b c j tau : ℝ} {rs : List ℝ}

/-- C104 for DC drives. -/
theorem c104_dc (mp : DcParams ℝ) (pe : PermExParams ℝ) (hla : mp.la ≠ 0) (hle : mp.le ≠ 0) (hl : mp.la + mp.le ≠ 0)
    (hra : 0 ≤ mp.ra) (hre : 0 ≤ mp.re) (pl : pe.la ≠ 0) (pr : 0 ≤ pe.ra) :
    NeverCreatesEnergy (dcTorque mp) (dcOde mp) (dcW mp) dcP ∧
    NeverCreatesEnergy (dcTorque mp) (shuntOde mp) (dcW mp) shuntP ∧
    NeverCreatesEnergy (seriesTorque mp) (seriesOde mp) (seriesW mp) oneP ∧
    NeverCreatesEnergy (permExTorque pe) (permExOde pe) (permExW pe) oneP := by
  refine ⟨never_creates (extEx_balance mp hla hle) ?_ ?_, never_creates (shunt_balance mp hla hle) ?_ ?_,
    never_creates (series_balance mp hl) ?_ ?_, never_creates (permEx_balance pe pl) ?_ ?_⟩
  · unfold dcW; fun_prop
  · intro x; unfold dcLoss; positivity
  · unfold dcW; fun_prop
  · intro x; unfold dcLoss; positivity
  · unfold seriesW; fun_prop
  · intro x; unfold seriesLoss; positivity
  · unfold permExW; fun_prop
  · intro x; unfold permExLoss; positivity

/-- C104 for drives with three-phase motors. -/
theorem c104_three_phase (mp : SyncParams ℝ) (ee : EesmParams ℝ) (im : ImParams ℝ) (hd : mp.ld ≠ 0) (hq : mp.lq ≠ 0)
    (hr : 0 ≤ mp.rs) (ed : ee.ld ≠ 0) (eq : ee.lq ≠ 0) (ek : ee.k ≠ 0) (el : ee.le ≠ 0) (es : ee.sigma ≠ 0) (er : 0 ≤ ee.rs)
    (ere : 0 ≤ ee.re) (ils : im.ls ≠ 0) (ilr : im.lr ≠ 0) (is : im.sigma ≠ 0) (ir : 0 ≤ im.rs) (irr : 0 ≤ im.rr) :
    NeverCreatesEnergy (pmsmTorque mp) (syncOde (pmsmConstants mp)) (syncW mp) syncP ∧
    NeverCreatesEnergy (synrmTorque mp) (syncOde (synrmConstants mp)) (syncW mp) syncP ∧
    NeverCreatesEnergy (eesmTorque ee) (eesmOde ee) (eesmEnergy ee) eesmP ∧
    NeverCreatesEnergy (imTorque im) (scimOde im) (imW im) scimP ∧
    NeverCreatesEnergy (imTorque im) (imOde im) (imW im) (dfimP im) := by
  refine ⟨never_creates (pmsm_balance mp hd hq) ?_ ?_, never_creates (synrm_balance mp hd hq) ?_ ?_,
    never_creates (eesm_balance ee ed eq ek el es) ?_ ?_, never_creates (scim_balance im ils ilr is) ?_ ?_,
    never_creates (dfim_balance im ils ilr is) ?_ ?_⟩
  · unfold syncW; fun_prop
  · intro x; unfold syncLoss; positivity
  · unfold syncW; fun_prop
  · intro x; unfold syncLoss; positivity
  · unfold eesmEnergy; fun_prop
  · intro x; unfold eesmLoss; positivity
  · unfold imW imStatorFlux imRotorCurrent; fun_prop
  · intro x; unfold imLoss; positivity
  · unfold imW imStatorFlux imRotorCurrent; fun_prop
  · intro x; unfold imLoss; positivity

end

end GEM.Props
