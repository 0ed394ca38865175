import Mathlib.Tactic.FieldSimp
import Mathlib.Tactic.Linarith
import Mathlib.Tactic.LinearCombination
import Verif.Props.Feedforward
import Verif.Props.ClassicActions
import Verif.Proofs.Wrappers

/-!
# C127: feed-forward and decoupling of the classic controllers
-/

set_option linter.unusedSectionVars false

namespace GEM.Props

open GEM GEM.Classic GEM.Motor

section generic

variable {K : Type} [Field K] [LinearOrder K] [IsStrictOrderedRing K]

/-! ## Current control of DC motors -/

/-- what the current controller says without feed-forward -/
def wish (c : ContAction K) (st : Cont K × Cont K) (s r : ℕ → K) : K := (st.1.control (s c.refState) (r c.refIdx)).2

/-- An action inside the limits is what the controller says and the feed-forward. -/
theorem inside_action (c : ContAction K) (st : Cont K × Cont K) (s r : ℕ → K) {f a : K} {l : List K} (hf : c.feedforward s = .ok f)
    (ha : (c.control st s r).2 = .ok (a :: l)) (h : c.lo < a ∧ a < c.hi) : a = wish c st s r + f := by
  have key : a = (guarded c.lo c.hi (wish c st s r + f) (st.1.control (s c.refState) (r c.refIdx)).1 (s c.refState) (r c.refIdx)).2 := by
    unfold ContAction.control at ha
    rw [hf] at ha
    cases hx : c.exc with
    | none =>
      rw [hx] at ha
      simp only [Except.ok.injEq, List.cons.injEq] at ha
      exact ha.1.symm
    | some x =>
      rw [hx] at ha
      simp only [Except.ok.injEq, List.cons.injEq] at ha
      exact ha.1.symm
  rw [key] at h ⊢
  unfold guarded at h ⊢
  split_ifs at h ⊢ with hc
  · rfl
  · exfalso
    simp only [clip] at h
    apply hc
    constructor
    · by_contra h1
      rw [max_eq_right (le_of_not_ge h1)] at h
      exact absurd h.1 (not_lt.2 (min_le_left _ _))
    · by_contra h1
      have h2 : c.hi ≤ max (wish c st s r + f) c.lo := (le_of_not_ge h1).trans (le_max_left _ _)
      rw [min_eq_right h2] at h
      exact lt_irrefl _ h.2

/-- C127 for the current control of the permanently excited motor: an action strictly inside the limits makes the current obey
`l_a di/dt = u - r_a i` with the voltage `u` of the PI controller at every speed, if nominal values and limits of speed and voltage have
the same ratio.  Missing for C127: other ratios (`c127_permex_violated`). -/
theorem c127_permex_partial (mp : PermExParams K) (hl : mp.la ≠ 0) (hpsi : mp.psiE ≠ 0) (c : ContAction K) (hc : c.psi = mp.psiE)
    {limOmega limI limU : K} (hU : limU ≠ 0) (hn : c.nomU ≠ 0) (hratio : c.nomOmega / c.nomU = limOmega / limU)
    (st : Cont K × Cont K) (s r : ℕ → K) {a : K} (ha : (c.control st s r).2 = .ok [a]) (hin : c.lo < a ∧ a < c.hi) :
    mp.la * permExOde mp ![s c.iIdx * limI] ![a * limU] (s c.omegaIdx * limOmega) 0
      = wish c st s r * limU - mp.ra * (s c.iIdx * limI) := by
  have hf : c.feedforward s = .ok (s c.omegaIdx * c.nomOmega * mp.psiE / c.nomU) := by
    simp [ContAction.feedforward, hc, hpsi, Except.map]
  rw [inside_action c st s r hf ha hin, permExOde_eq]
  have h2 : c.nomOmega * limU = limOmega * c.nomU := (div_eq_div_iff hn hU).1 hratio
  simp
  field_simp
  linear_combination s c.omegaIdx * mp.psiE * h2

/-- C127 is violated by every other ratio: the share `1 - nominal omega * limit u / (nominal u * limit omega)` of the induced voltage stays
in the equation of the current. -/
theorem c127_permex_violated (mp : PermExParams K) (hl : mp.la ≠ 0) (hpsi : mp.psiE ≠ 0) (c : ContAction K) (hc : c.psi = mp.psiE)
    {limOmega limI limU : K} (hn : c.nomU ≠ 0) (hO : limOmega ≠ 0)
    (st : Cont K × Cont K) (s r : ℕ → K) {a : K} (ha : (c.control st s r).2 = .ok [a]) (hin : c.lo < a ∧ a < c.hi) :
    mp.la * permExOde mp ![s c.iIdx * limI] ![a * limU] (s c.omegaIdx * limOmega) 0
      = wish c st s r * limU - mp.ra * (s c.iIdx * limI)
        - (1 - c.nomOmega * limU / (c.nomU * limOmega)) * (mp.psiE * (s c.omegaIdx * limOmega)) := by
  have hf : c.feedforward s = .ok (s c.omegaIdx * c.nomOmega * mp.psiE / c.nomU) := by
    simp [ContAction.feedforward, hc, hpsi, Except.map]
  rw [inside_action c st s r hf ha hin, permExOde_eq]
  simp
  field_simp
  ring

/-- The default values of the permanently excited motor: 300 of 400 rad/s and 60 of 60 V, so that a quarter of the induced voltage is not
compensated. -/
example : (1 - 300 * 60 / (60 * 400) : ℚ) = 1 / 4 := by norm_num

/-- Such a case: at half of the speed limit the action is `1 / 10 + 200 * 3/4 * psi / 60` with `1 / 10` from the controller. -/
example : ((ContAction.mk 1 0 1 0 0 1 (1 / 6) none 300 97 60 none : ContAction ℚ).control
    (Cont.new 1 0 none (1 / 10000), Cont.new 0 0 none 1) (fun i => if i = 0 then 1 / 2 else 0) (fun _ => 1 / 10)).2
      = .ok [1 / 10 + 1 / 2 * 300 * (1 / 6) / 60] := by
  norm_num [ContAction.control, ContAction.feedforward, Except.map, guarded, Cont.control, Cont.new]

/-- C127 for the current control of the series motor. -/
theorem c127_series_partial (mp : DcParams K) (hl : mp.la + mp.le ≠ 0) (c : ContAction K) (hc : c.psi = 0 ∧ c.l = some mp.lePrime)
    {limOmega limI limU : K} (hU : limU ≠ 0) (hn : c.nomU ≠ 0) (hratio : c.nomOmega * c.nomI / c.nomU = limOmega * limI / limU)
    (st : Cont K × Cont K) (s r : ℕ → K) {a : K} (ha : (c.control st s r).2 = .ok [a]) (hin : c.lo < a ∧ a < c.hi) :
    (mp.la + mp.le) * seriesOde mp ![s c.iIdx * limI] ![a * limU] (s c.omegaIdx * limOmega) 0
      = wish c st s r * limU - (mp.ra + mp.re) * (s c.iIdx * limI) := by
  have hf : c.feedforward s = .ok (s c.omegaIdx * c.nomOmega * (mp.lePrime * s c.iIdx * c.nomI) / c.nomU) := by
    simp [ContAction.feedforward, hc.1, hc.2, Except.map]
  rw [inside_action c st s r hf ha hin, seriesOde_eq]
  have h2 : c.nomOmega * c.nomI * limU = limOmega * limI * c.nomU := (div_eq_div_iff hn hU).1 hratio
  simp
  field_simp
  linear_combination s c.omegaIdx * s c.iIdx * mp.lePrime * h2

/-- C127 for the armature current of the shunt and of the externally excited motor: `iIdx` is the exciting current. -/
theorem c127_armature_partial (mp : DcParams K) (hl : mp.la ≠ 0) (c : ContAction K) (hc : c.psi = 0 ∧ c.l = some mp.lePrime)
    {limOmega limIa limIe limU : K} (hU : limU ≠ 0) (hn : c.nomU ≠ 0)
    (hratio : c.nomOmega * c.nomI / c.nomU = limOmega * limIe / limU)
    (st : Cont K × Cont K) (s r : ℕ → K) (ia ue : K) {a : K} {l : List K} (ha : (c.control st s r).2 = .ok (a :: l))
    (hin : c.lo < a ∧ a < c.hi) :
    mp.la * dcOde mp ![ia * limIa, s c.iIdx * limIe] ![a * limU, ue] (s c.omegaIdx * limOmega) 0
      = wish c st s r * limU - mp.ra * (ia * limIa) := by
  have hf : c.feedforward s = .ok (s c.omegaIdx * c.nomOmega * (mp.lePrime * s c.iIdx * c.nomI) / c.nomU) := by
    simp [ContAction.feedforward, hc.1, hc.2, Except.map]
  rw [inside_action c st s r hf ha hin, dcOde_eq]
  have h2 : c.nomOmega * c.nomI * limU = limOmega * limIe * c.nomU := (div_eq_div_iff hn hU).1 hratio
  simp
  field_simp
  linear_combination s c.omegaIdx * s c.iIdx * mp.lePrime * h2

/-- Nominal values and limits with the same ratio, as they are if the nominal values of speed, current and voltage are not given and the
limits are, or the other way round. -/
example : (300 * 97 / 60 : ℚ) = 300 * 97 / 60 ∧ (100 * 80 / 30 : ℚ) = 150 * 160 / 90 := by norm_num

/-! ## Cascades of DC motors -/

/-- what the inner stage of a cascade says without feed-forward -/
def wishInner (c : Cascade K) (inner : Cont K) (outer : Stage K) (s r : ℕ → K) : K :=
  (inner.control (s c.iaIdx) (outer.outer c.iLo c.iHi (s c.iaIdx) (s c.refState) (r c.refIdx) (r 0)).2).2

theorem inside_cascade (c : Cascade K) (eps : K) (inner : Cont K) (outer : Stage K) (s r : ℕ → K)
    (h : c.lo < (c.control eps (.cont inner, outer) s r).2 ∧ (c.control eps (.cont inner, outer) s r).2 < c.hi) :
    (c.control eps (.cont inner, outer) s r).2 = wishInner c inner outer s r + c.feedforward eps s := by
  have key : (c.control eps (.cont inner, outer) s r).2 = (guarded c.lo c.hi (wishInner c inner outer s r + c.feedforward eps s)
      (inner.control (s c.iaIdx) (outer.outer c.iLo c.iHi (s c.iaIdx) (s c.refState) (r c.refIdx) (r 0)).2).1 (s c.iaIdx)
      (outer.outer c.iLo c.iHi (s c.iaIdx) (s c.refState) (r c.refIdx) (r 0)).2).2 := rfl
  rw [key] at h ⊢
  unfold guarded at h ⊢
  split_ifs at h ⊢ with hc
  · rfl
  · exfalso
    simp only [clip] at h
    apply hc
    constructor
    · by_contra h1
      rw [max_eq_right (le_of_not_ge h1)] at h
      exact absurd h.1 (not_lt.2 (min_le_left _ _))
    · by_contra h1
      have h2 : c.hi ≤ max (wishInner c inner outer s r + c.feedforward eps s) c.lo := (le_of_not_ge h1).trans (le_max_left _ _)
      rw [min_eq_right h2] at h
      exact lt_irrefl _ h.2

/-- C127 is violated by the cascade of the permanently excited motor: `cascaded_controller.py` asks for the parameter `psie_e`, which no
motor has, so that it uses a flux of `1e-6` and the induced voltage stays in the equation of the current, up to `1e-6` times the speed. -/
theorem c127_cascade_permex_violated (mp : PermExParams K) (hl : mp.la ≠ 0) (c : Cascade K) (hc : c.psi = 0 ∧ c.l = 0) {eps : K}
    (he : 0 < eps) {limOmega limI limU : K} (hn : c.nomU ≠ 0) (inner : Cont K) (outer : Stage K) (s r : ℕ → K)
    (hin : c.lo < (c.control eps (.cont inner, outer) s r).2 ∧ (c.control eps (.cont inner, outer) s r).2 < c.hi) :
    mp.la * permExOde mp ![s c.iaIdx * limI] ![(c.control eps (.cont inner, outer) s r).2 * limU] (s c.omegaIdx * limOmega) 0
      = wishInner c inner outer s r * limU - mp.ra * (s c.iaIdx * limI) - mp.psiE * (s c.omegaIdx * limOmega)
        + eps * s c.omegaIdx * (c.nomOmega * limU / c.nomU) := by
  rw [inside_cascade c eps inner outer s r hin, permExOde_eq]
  simp [Cascade.feedforward, hc.1, hc.2, max_eq_right he.le]
  field_simp
  ring

/-- C127 for the cascades of the other DC motors, while the exciting current and with it the flux is positive. -/
theorem c127_cascade_partial (mp : DcParams K) (hl : mp.la ≠ 0) (hs : mp.la + mp.le ≠ 0) (c : Cascade K)
    (hc : c.psi = 0 ∧ c.l = mp.lePrime) {eps : K}
    {limOmega limIa limIe limU : K} (hU : limU ≠ 0) (hn : c.nomU ≠ 0)
    (hratio : c.nomOmega * c.nomI / c.nomU = limOmega * limIe / limU) (inner : Cont K) (outer : Stage K) (s r : ℕ → K) (ue : K)
    (hflux : eps ≤ mp.lePrime * s c.ieIdx * c.nomI)
    (hin : c.lo < (c.control eps (.cont inner, outer) s r).2 ∧ (c.control eps (.cont inner, outer) s r).2 < c.hi) :
    mp.la * dcOde mp ![s c.iaIdx * limIa, s c.ieIdx * limIe] ![(c.control eps (.cont inner, outer) s r).2 * limU, ue]
        (s c.omegaIdx * limOmega) 0 = wishInner c inner outer s r * limU - mp.ra * (s c.iaIdx * limIa) ∧
    (mp.la + mp.le) * seriesOde mp ![s c.ieIdx * limIe] ![(c.control eps (.cont inner, outer) s r).2 * limU] (s c.omegaIdx * limOmega) 0
      = wishInner c inner outer s r * limU - (mp.ra + mp.re) * (s c.ieIdx * limIe) := by
  have h2 : c.nomOmega * c.nomI * limU = limOmega * limIe * c.nomU := (div_eq_div_iff hn hU).1 hratio
  rw [inside_cascade c eps inner outer s r hin, dcOde_eq, seriesOde_eq]
  have hf : c.feedforward eps s = s c.omegaIdx * c.nomOmega * (mp.lePrime * s c.ieIdx * c.nomI) / c.nomU := by
    simp [Cascade.feedforward, hc.1, hc.2, max_eq_left hflux]
  rw [hf]
  constructor
  · simp
    field_simp
    linear_combination s c.omegaIdx * s c.ieIdx * mp.lePrime * h2
  · simp
    field_simp
    linear_combination s c.omegaIdx * s c.ieIdx * mp.lePrime * h2

/-- C127 is violated by the cascades of series motors in four-quadrant converters: with a negative current the flux is taken as `1e-6`. -/
theorem c127_cascade_negative_violated (mp : DcParams K) (hl : mp.la + mp.le ≠ 0) (c : Cascade K) (hc : c.psi = 0 ∧ c.l = mp.lePrime)
    {eps : K} {limOmega limI limU : K} (hn : c.nomU ≠ 0) (inner : Cont K) (outer : Stage K) (s r : ℕ → K)
    (hflux : mp.lePrime * s c.ieIdx * c.nomI ≤ eps)
    (hin : c.lo < (c.control eps (.cont inner, outer) s r).2 ∧ (c.control eps (.cont inner, outer) s r).2 < c.hi) :
    (mp.la + mp.le) * seriesOde mp ![s c.ieIdx * limI] ![(c.control eps (.cont inner, outer) s r).2 * limU] (s c.omegaIdx * limOmega) 0
      = wishInner c inner outer s r * limU - (mp.ra + mp.re) * (s c.ieIdx * limI)
        - mp.lePrime * (s c.ieIdx * limI) * (s c.omegaIdx * limOmega) + eps * s c.omegaIdx * (c.nomOmega * limU / c.nomU) := by
  rw [inside_cascade c eps inner outer s r hin, seriesOde_eq]
  have hf : c.feedforward eps s = s c.omegaIdx * c.nomOmega * eps / c.nomU := by
    simp [Cascade.feedforward, hc.1, hc.2, max_eq_right hflux]
  rw [hf]
  simp
  field_simp
  ring

/-- C127 is violated by the outer stage of every cascade: for torque control the action does not depend on the torque of the motor, but
on its current, which is compared with the reference of the torque.  (Speed control: the same, apart from the feed-forward.)  Two states
that differ in the controlled quantity only lead to the same action. -/
theorem c127_outer_violated (c : Cascade K) (eps : K) (st : Stage K × Stage K) (s s' r : ℕ → K)
    (hs : ∀ i, i = c.iaIdx ∨ i = c.ieIdx ∨ i = c.omegaIdx → s i = s' i) :
    (c.control eps st s r).2 = (c.control eps st s' r).2 ∧
    ∀ lo hi lower x y, (st.2.outer lo hi lower x (r c.refIdx) (r 0)).2 = (st.2.outer lo hi lower y (r c.refIdx) (r 0)).2 := by
  have e1 := hs _ (Or.inl rfl)
  have e2 := hs _ (Or.inr (Or.inl rfl))
  have e3 := hs _ (Or.inr (Or.inr rfl))
  have ho : ∀ (o : Stage K) (lo hi lower x y u v : K), (o.outer lo hi lower x u v).2 = (o.outer lo hi lower y u v).2 := by
    intro o lo hi lower x y u v
    cases o with
    | cont z =>
      simp only [Stage.outer, guarded]
      split_ifs <;> rfl
    | disc z => rfl
  refine ⟨?_, fun lo hi lower x y => ho _ _ _ _ _ _ _ _⟩
  have hfw : c.feedforward eps s = c.feedforward eps s' := by simp only [Cascade.feedforward, e2, e3]
  simp only [Cascade.control, e1, ho st.2 c.iLo c.iHi (s' c.iaIdx) (s c.refState) (s' c.refState)]
  obtain ⟨i, o⟩ := st
  cases i with
  | cont x => simp only [Cascade.inner, hfw, e1]
  | disc x => simp only [Cascade.inner, e1]

/-- Two such states, with torques 0 and 1. -/
example : ∃ (c : Cascade ℚ) (s s' : ℕ → ℚ), s c.refState = 0 ∧ s' c.refState = 1 ∧
    ∀ i, i = c.iaIdx ∨ i = c.ieIdx ∨ i = c.omegaIdx → s i = s' i :=
  ⟨⟨1, 0, 2, 2, 0, -1, 1, -1, 1, 0, 1, 1, 1, 1⟩, fun _ => 0, fun i => if i = 1 then 1 else 0, rfl, rfl, by
    rintro i (rfl | rfl | rfl) <;> simp⟩

end generic

/-! ## Field oriented control of synchronous motors -/

/-- The shift of the reference potential changes no current: the voltages in rotating coordinates are the ones before the shift. -/
theorem c127_shift (v : Fin 3 → ℝ) : t23 (shifted v) = t23 v := by
  funext i
  fin_cases i
  · simp [t23, shifted, Matrix.mulVec, dotProduct, Fin.sum_univ_succ]; ring
  · simp [t23, shifted, Matrix.mulVec, dotProduct, Fin.sum_univ_succ]; ring

/-- After the shift the largest and the smallest voltage have the same magnitude; no other shift of the three voltages gives smaller
magnitudes. -/
theorem c127_shift_optimal (v : Fin 3 → ℝ) (z M : ℝ) (h : ∀ j, |v j - z| ≤ M) (j : Fin 3) : |shifted v j| ≤ M := by
  have h0 := abs_le.1 (h 0)
  have h1 := abs_le.1 (h 1)
  have h2 := abs_le.1 (h 2)
  have hmax : max3 v ≤ z + M ∧ v j ≤ max3 v := by
    refine ⟨max_le (max_le (by linarith) (by linarith)) (by linarith), ?_⟩
    fin_cases j
    · exact (le_max_left _ _).trans (le_max_left _ _)
    · exact (le_max_right _ _).trans (le_max_left _ _)
    · exact le_max_right _ _
  have hmin : z - M ≤ min3 v ∧ min3 v ≤ v j := by
    refine ⟨le_min (le_min (by linarith) (by linarith)) (by linarith), ?_⟩
    fin_cases j
    · exact (min_le_left _ _).trans (min_le_left _ _)
    · exact (min_le_left _ _).trans (min_le_right _ _)
    · exact min_le_right _ _
  simp only [shifted]
  rw [abs_le]
  constructor <;> linarith [hmax.1, hmax.2, hmin.1, hmin.2]

/-- what the two current controllers say -/
noncomputable def wishDq (c : Foc) (st : Cont ℝ × Cont ℝ) (s : ℕ → ℝ) (rd rq : ℝ) : Fin 2 → ℝ :=
  ![(st.1.control (s c.iSd) rd).2, (st.2.control (s c.iSq) rq).2]

theorem clip_between {x lo hi : ℝ} (h : lo < clip x lo hi ∧ clip x lo hi < hi) : clip x lo hi = x := by
  simp only [clip] at h ⊢
  have h1 : max x lo < hi := by
    by_contra h1
    rw [min_eq_right (not_lt.1 h1)] at h
    exact lt_irrefl _ h.2
  rw [min_eq_left h1.le] at h ⊢
  refine max_eq_left ?_
  by_contra h2
  rw [max_eq_right (not_le.1 h2).le] at h
  exact lt_irrefl _ h.1

theorem t23_smul (v : Fin 3 → ℝ) (k : ℝ) : t23 (fun j => v j * k) = fun i => t23 v i * k := by
  funext i
  fin_cases i <;> simp [t23, Matrix.mulVec, dotProduct, Fin.sum_univ_succ] <;> ring

theorem qInv_smul (v : Fin 2 → ℝ) (k e : ℝ) : qInv (fun j => v j * k) e = fun i => qInv v e i * k := by
  funext i
  fin_cases i <;> simp [qInv, q] <;> ring

/-- the voltages of an action inside the limits, at the angle the controller uses -/
theorem foc_voltage (c : Foc) (st : Cont ℝ × Cont ℝ) (s : ℕ → ℝ) (rd rq U : ℝ)
    (hin : ∀ j, c.lo < (c.currents st s rd rq).2 j ∧ (c.currents st s rd rq).2 j < c.hi) (i : Fin 2) :
    qInv (t23 fun j => (c.currents st s rd rq).2 j * U) (c.angle s) i = (wishDq c st s rd rq i + c.coupling s i) * U := by
  have e : (c.currents st s rd rq).2 = shifted (t32 (q ![wishDq c st s rd rq 0 + c.coupling s 0, wishDq c st s rd rq 1 + c.coupling s 1]
      (c.angle s))) := by
    funext j
    exact clip_between (hin j)
  rw [t23_smul, qInv_smul, e, c127_shift]
  simp only [Wrap.qInv_t23_t32_q]
  fin_cases i <;> rfl

/-- C127 for the field oriented control of the currents of synchronous motors: with an action strictly inside the limits, the voltages in
the coordinates of the controller make both currents of the permanent magnet motor obey `l di/dt = u - r_s i` with the voltage `u` of the
PI controllers, at every speed. -/
theorem c127_foc (mp : SyncParams ℝ) (hd : mp.ld ≠ 0) (hq : mp.lq ≠ 0) (c : Foc) (hdec : c.decoupling = true)
    (hp : c.p = mp.p ∧ c.lD = mp.ld ∧ c.lQ = mp.lq ∧ c.psi = mp.psiP) {U : ℝ} (hU : U ≠ 0) (hlim : c.limUd = U ∧ c.limUq = U ∧ c.lim = c.limSd)
    (st : Cont ℝ × Cont ℝ) (s : ℕ → ℝ) (rd rq eps : ℝ)
    (hin : ∀ j, c.lo < (c.currents st s rd rq).2 j ∧ (c.currents st s rd rq).2 j < c.hi) :
    let u := qInv (t23 fun j => (c.currents st s rd rq).2 j * U) (c.angle s)
    mp.ld * syncOde (pmsmConstants mp) ![s c.iSd * c.limSd, s c.iSq * c.limSq, eps] u (s c.omega * c.limOmega) 0
      = wishDq c st s rd rq 0 * U - mp.rs * (s c.iSd * c.limSd) ∧
    mp.lq * syncOde (pmsmConstants mp) ![s c.iSd * c.limSd, s c.iSq * c.limSq, eps] u (s c.omega * c.limOmega) 1
      = wishDq c st s rd rq 1 * U - mp.rs * (s c.iSq * c.limSq) := by
  intro u
  have h0 : u 0 = _ := foc_voltage c st s rd rq U hin 0
  have h1 : u 1 = _ := foc_voltage c st s rd rq U hin 1
  rw [pmsmOde_eq]
  obtain ⟨p1, p2, p3, p4⟩ := hp
  obtain ⟨l1, l2, l3⟩ := hlim
  simp only [Foc.coupling, hdec, if_true, Matrix.cons_val_zero, Matrix.cons_val_one, p1, p2, p3, p4, l1, l2, l3] at h0 h1
  constructor
  · simp only [Matrix.cons_val_zero, Matrix.cons_val_one, h0]
    field_simp
    ring
  · simp only [Matrix.cons_val_zero, Matrix.cons_val_one, h1]
    field_simp
    ring

/-- C127 is violated by the cascaded field oriented control, which multiplies the current `i_sd` with the limit of the voltage `u_sd`: the
q axis keeps the voltage `omega p l_d i_sd (1 - limit u_sd / limit i_sd)` of the d axis. -/
theorem c127_cascaded_foc_violated (mp : SyncParams ℝ) (hq : mp.lq ≠ 0) (c : Foc) (hdec : c.decoupling = true)
    (hp : c.p = mp.p ∧ c.lD = mp.ld ∧ c.lQ = mp.lq ∧ c.psi = mp.psiP) {U : ℝ} (hU : U ≠ 0) (hlim : c.limUd = U ∧ c.limUq = U ∧ c.lim = c.limUd)
    (st : Cont ℝ × Cont ℝ) (s : ℕ → ℝ) (rd rq eps : ℝ)
    (hin : ∀ j, c.lo < (c.currents st s rd rq).2 j ∧ (c.currents st s rd rq).2 j < c.hi) :
    let u := qInv (t23 fun j => (c.currents st s rd rq).2 j * U) (c.angle s)
    mp.lq * syncOde (pmsmConstants mp) ![s c.iSd * c.limSd, s c.iSq * c.limSq, eps] u (s c.omega * c.limOmega) 1
      = wishDq c st s rd rq 1 * U - mp.rs * (s c.iSq * c.limSq)
        - s c.omega * c.limOmega * mp.p * mp.ld * s c.iSd * (c.limSd - U) := by
  intro u
  have h1 : u 1 = _ := foc_voltage c st s rd rq U hin 1
  rw [pmsmOde_eq]
  obtain ⟨p1, p2, p3, p4⟩ := hp
  obtain ⟨l1, l2, l3⟩ := hlim
  rw [l1] at l3
  simp only [Foc.coupling, hdec, if_true, Matrix.cons_val_zero, Matrix.cons_val_one, p1, p2, p3, p4, l1, l2, l3] at h1
  simp only [Matrix.cons_val_zero, Matrix.cons_val_one, h1]
  field_simp
  ring

/-- C127 is violated by cascaded field oriented control of the currents: the action depends on the reference of `i_sd` only, the current
`i_sq` is driven to 0 whatever its reference is. -/
theorem c127_reference_violated {θ : Type} (c : Foc) (o : Overlaid) (conv : Conversion θ) (refD : ℕ) (st : CascadedFoc (Cont ℝ × Cont ℝ) θ)
    (s r r' : ℕ → ℝ) (h : r refD = r' refD) :
    c.cascaded .current o conv refD st s r = c.cascaded .current o conv refD st s r' ∧
    (c.cascaded .current o conv refD st s r).2 = (c.currents st.1 s (r refD) 0).2 := by
  simp only [Foc.cascaded, cascadedRefs, h, and_self]

/-- Actions strictly inside the limits: a motor at standstill, with references 1/10 and 0, controllers with a gain of 1. -/
example : ∃ (c : Foc) (st : Cont ℝ × Cont ℝ) (s : ℕ → ℝ), c.decoupling = true ∧ wishDq c st s (1 / 10) 0 = ![1 / 10, 0] ∧
    ∀ j, c.lo < (c.currents st s (1 / 10) 0).2 j ∧ (c.currents st s (1 / 10) 0).2 j < c.hi := by
  refine ⟨⟨0, 1, 2, 3, 400, 400, 200, 200, 600, 1, 400, 3, 1 / 1000, 1 / 500, 1 / 10, 0, 1 / 10000, -1, 1, true⟩,
    (Cont.new 1 0 none 1, Cont.new 1 0 none 1), fun _ => 0, rfl, ?_, ?_⟩
  · funext i
    fin_cases i <;> simp [wishDq, Cont.control, Cont.new]
  · have hv : t32 (q ![1 / 10, 0] 0) = ![1 / 10, -(1 / 20), -(1 / 20)] := by
      funext j
      fin_cases j <;> simp [t32, q, Matrix.vecHead] <;> norm_num
    intro j
    have e : ∀ c : Foc, c.coupling (fun _ => 0) = ![0, 0] ∧ c.angle (fun _ => 0) = 0 := fun c => by
      refine ⟨?_, by simp [Foc.angle]⟩
      unfold Foc.coupling
      split_ifs
      · simp
      · rfl
    simp only [Foc.currents, e, Cont.control, Cont.new]
    rw [show (![1 * (1 / 10 - 0) + 0 * (0 + (1 / 10 - 0) * 1) + ![0, 0] 0, 1 * (0 - 0) + 0 * (0 + (0 - 0) * 1) + ![0, 0] 1] : Fin 2 → ℝ)
      = ![1 / 10, 0] by norm_num, hv]
    have hs : ∀ j, |shifted ![1 / 10, -(1 / 20), -(1 / 20)] j| ≤ 1 / 10 := fun j =>
      c127_shift_optimal _ 0 _ (fun i => by fin_cases i <;> norm_num [abs_le]) j
    have h := abs_le.1 (hs j)
    simp only [clip3, clip]
    rw [max_eq_left (by linarith [h.1]), min_eq_left (by linarith [h.2])]
    constructor <;> linarith [h.1, h.2]

/-! ## Field oriented control of induction motors -/

/-- The decoupling of the induction motor controllers is the one of the stage `EMFFeedforwardInd` of the library (C53). -/
theorem c127_im (mp : ImParams ℝ) (hls : mp.ls ≠ 0) (hlr : mp.lr ≠ 0) (c : ImFoc) (hdec : c.decoupling = true)
    (hp : c.rr = mp.rr ∧ c.lm = mp.lm ∧ c.lr = mp.lr ∧ c.ls = mp.ls) (s : ℕ → ℝ) (psi : ℝ) (r : Fin 2 → ℝ) (j : Fin 2) :
    c.coupling s psi j + r j = Ctl.emfInd mp (s c.omega) (s c.iSd) (s c.iSq) psi r j := by
  obtain ⟨p1, p2, p3, p4⟩ := hp
  have hlsig : mp.lsigr + mp.lm = mp.lr := by simp [ImParams.lr, add_comm]
  have hsg : ((SignType.sign psi : SignType) : ℝ) = Ctl.sgn psi := by
    unfold Ctl.sgn
    rcases lt_trichotomy psi 0 with h | h | h
    · rw [if_neg h.le.not_gt, if_pos h, sign_neg h]; simp
    · rw [h]; simp
    · rw [if_pos h, sign_pos h]; simp
  have hsig : c.sigma * c.ls = mp.sigma * mp.ls := by rw [ImFoc.sigma, ImParams.sigma, p2, p3, p4]
  have hl := leak_eq mp hls hlr
  simp only [ImFoc.coupling, hdec, if_true, Ctl.emfInd, Ctl.omegaS, hlsig, hl, hsg, p1, p2, p3, ← hsig, p4]
  fin_cases j <;> simp <;> ring

/-- C127 for induction motors: the voltages of an action strictly inside the limits, in the coordinates of the estimated flux, are those of
the library's decoupling for the voltages of the PI controllers.  What this means for the currents is `c53_scim_partial`, and for motors
with more than one pole pair `c53_scim_violated`. -/
theorem c127_im_voltage (mp : ImParams ℝ) (hls : mp.ls ≠ 0) (hlr : mp.lr ≠ 0) (c : ImFoc) (hdec : c.decoupling = true)
    (hp : c.rr = mp.rr ∧ c.lm = mp.lm ∧ c.lr = mp.lr ∧ c.ls = mp.ls) (hlim : ∀ j, c.limits (c.abc j) ≠ 0) (st : Cont ℝ × Cont ℝ)
    (s : ℕ → ℝ) (rd rq : ℝ) (psi : ℂ)
    (hin : ∀ j, c.lo < (c.currents st s rd rq psi).2 j ∧ (c.currents st s rd rq psi).2 j < c.hi) :
    qInv (t23 fun j => (c.currents st s rd rq psi).2 j * c.limits (c.abc j)) psi.arg
      = Ctl.emfInd mp (s c.omega * c.limits c.omega) (s c.iSd * c.limits c.iSd) (s c.iSq * c.limits c.iSq) ‖psi‖
        ![(st.1.control (s c.iSd * c.limits c.iSd) rd).2, (st.2.control (s c.iSq * c.limits c.iSq) rq).2] := by
  have e : (fun j => (c.currents st s rd rq psi).2 j * c.limits (c.abc j)) = t32 (q ![
      c.coupling (fun i => s i * c.limits i) ‖psi‖ 0 + (st.1.control (s c.iSd * c.limits c.iSd) rd).2,
      c.coupling (fun i => s i * c.limits i) ‖psi‖ 1 + (st.2.control (s c.iSq * c.limits c.iSq) rq).2] psi.arg) := by
    funext j
    have h : (c.currents st s rd rq psi).2 j = _ := clip_between (hin j)
    rw [h]
    exact div_mul_cancel₀ _ (hlim j)
  rw [e, Wrap.qInv_t23_t32_q]
  funext i
  rw [← c127_im mp hls hlr c hdec hp (fun i => s i * c.limits i)]
  fin_cases i <;> rfl

/-! ## Cases of the cascades -/

/-- the cascade of a series motor -/
def exampleCascade : Cascade ℚ := ⟨0, 0, 1, 1, 0, -1, 1, -1, 1, 0, 1 / 20, 10, 60, 60⟩

/-- An action of a cascade strictly inside the limits with a positive flux: half of the current at half of the speed, reference 0. -/
example : (1 / 1000000 : ℚ) ≤ exampleCascade.l * (1 / 2) * exampleCascade.nomI ∧
    (exampleCascade.control (1 / 1000000) (.cont (Cont.new 1 1 none 1), .cont (Cont.new 0 0 none 1)) (fun _ => 1 / 2) fun _ => 1 / 2).2
      = -7 / 8 ∧ exampleCascade.lo < -7 / 8 ∧ (-7 / 8 : ℚ) < exampleCascade.hi := by
  norm_num [exampleCascade, Cascade.control, Stage.outer, Cascade.inner, Cascade.feedforward, guarded, Cont.control, Cont.new]

end GEM.Props
