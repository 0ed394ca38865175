import Mathlib.Tactic.FieldSimp
import Mathlib.Tactic.LinearCombination
import Mathlib.Tactic.Linarith
import Mathlib.Analysis.SpecialFunctions.Pow.NNReal
import Verif.Model.OperatingPoint

/-!
# C54, C55, C56, C85 and following: selection of the operating point
-/

set_option linter.unusedSectionVars false

namespace GEM.Props

open GEM GEM.Ops GEM.Motor

/-! ## C86: direct current motors -/

/-- C86.  Series motor: for a torque that is not negative the current produces exactly this torque. -/
theorem c86_series_partial (mp : DcParams ℝ) (hl : 0 < mp.lePrime) (torque : ℝ) (h : 0 ≤ torque) :
    ∃ i, series mp.lePrime torque = some i ∧ seriesTorque mp ![i] = torque := by
  refine ⟨√(torque / mp.lePrime), if_pos (by positivity), ?_⟩
  have := Real.mul_self_sqrt (show 0 ≤ torque / mp.lePrime by positivity)
  simp only [seriesTorque, dcTorque, Matrix.cons_val_zero, Matrix.cons_val_one, mul_assoc, this]
  field_simp

/-- C86 is violated by the series motor for every negative torque: the reference is no number. -/
theorem c86_series_violated (mp : DcParams ℝ) (hl : 0 < mp.lePrime) (torque : ℝ) (h : torque < 0) :
    series mp.lePrime torque = none := if_neg (not_le.mpr (div_neg_of_neg_of_pos h hl))

/-- C86.  Shunt motor: with an exciting current of at least 10^-4 inside the margin the armature current produces exactly
the torque. -/
theorem c86_shunt_partial (mp : DcParams ℝ) (hl : mp.lePrime ≠ 0) (iaLimit ieLimit margin ie torque : ℝ)
    (h : 1 / 10000 ≤ |ie|) (hlim : |ie| ≤ ieLimit * (1 - margin)) :
    dcTorque mp ![shuntTuned mp iaLimit ieLimit margin ie torque, ie] = torque := by
  have hb := abs_le.mp hlim
  have h0 : ie ≠ 0 := by rintro rfl; norm_num at h
  have e : shuntTuned mp iaLimit ieLimit margin ie torque = torque / mp.lePrime / ie := by
    rw [shuntTuned, shunt, if_neg (by linarith), if_neg (by linarith), if_neg, if_neg]
    · rintro ⟨a, b⟩
      rw [abs_of_neg a] at h
      linarith
    · rintro ⟨a, b⟩
      rw [abs_of_nonneg a] at h
      linarith
  simp only [dcTorque, e, Matrix.cons_val_zero, Matrix.cons_val_one]
  field_simp

/-- C86 is violated by the shunt motor outside the margin: the reference does not depend on the torque; above the limit it is
the full negative armature current, although the comment announces 0. -/
theorem c86_shunt_violated (mp : DcParams ℝ) (iaLimit ieLimit margin ie torque : ℝ) (h : ieLimit * (1 - margin) < ie) :
    shuntTuned mp iaLimit ieLimit margin ie torque = -(iaLimit * (1 - margin)) := if_pos h

/-- C86.  Externally excited motor: with an exciting current of at least 10^-4 the torque is exact. -/
theorem c86_extEx_partial (mp : DcParams ℝ) (hl : mp.lePrime ≠ 0) (ie torque : ℝ) (h : 1 / 10000 ≤ ie) :
    dcTorque mp ![(extEx mp ie torque).1, ie] = torque := by
  have h0 : ie ≠ 0 := by intro h0; rw [h0] at h; norm_num at h
  simp only [dcTorque, extEx, Matrix.cons_val_zero, Matrix.cons_val_one, max_eq_left h]
  field_simp

/-- C86 is violated by the externally excited motor with a smaller or negative exciting current: the torque has the factor
`10^4 i_e`, hence the wrong direction for a negative one. -/
theorem c86_extEx_violated (mp : DcParams ℝ) (hl : mp.lePrime ≠ 0) (ie torque : ℝ) (h : ie < 1 / 10000) :
    dcTorque mp ![(extEx mp ie torque).1, ie] = 10000 * ie * torque := by
  simp only [dcTorque, extEx, Matrix.cons_val_zero, Matrix.cons_val_one, max_eq_right h.le]
  field_simp

/-- C86.  Once the exciting current has reached its reference, the two currents produce the torque with the smallest losses
of all pairs of currents that produce it. -/
theorem c86_extEx_losses (mp : DcParams ℝ) (hl : 0 < mp.lePrime) (ha : 0 < mp.ra) (he : 0 < mp.re) (torque : ℝ) (x y : ℝ)
    (h : 1 / 10000 ≤ (extEx mp 0 torque).2) (hxy : dcTorque mp ![x, y] = torque) :
    let ie := (extEx mp 0 torque).2
    let ia := (extEx mp ie torque).1
    dcTorque mp ![ia, ie] = torque ∧ mp.ra * ia ^ 2 + mp.re * ie ^ 2 ≤ mp.ra * x ^ 2 + mp.re * y ^ 2 := by
  intro ie ia
  refine ⟨c86_extEx_partial mp hl.ne' ie torque h, ?_⟩
  have hie0 : 0 < ie := lt_of_lt_of_le (by norm_num) h
  set A := √mp.ra with hA
  set B := √mp.re with hB
  have hA0 : 0 < A := Real.sqrt_pos.mpr ha
  have hB0 : 0 < B := Real.sqrt_pos.mpr he
  have hA2 : A ^ 2 = mp.ra := Real.sq_sqrt ha.le
  have hB2 : B ^ 2 = mp.re := Real.sq_sqrt he.le
  have hie : ie ^ 2 = A * |torque| / (B * mp.lePrime) := Real.sq_sqrt (by positivity)
  have hia : ia = torque / mp.lePrime / ie := by
    show torque / mp.lePrime / max ie (1 / 10000) = _
    rw [max_eq_left h]
  have h1 : B * mp.lePrime * ie ^ 2 = A * |torque| := by rw [hie]; field_simp
  have h2 : mp.lePrime * ia * ie = torque := by rw [hia]; field_simp
  have h3 : mp.lePrime * x * y = torque := by simpa [dcTorque] using hxy
  -- both parts of the losses are equal
  have h4 : A * |ia| = B * ie := by
    have e : mp.lePrime * |ia| * ie = |torque| := by
      rw [← h2, abs_mul, abs_mul, abs_of_pos hl, abs_of_pos hie0]
    have : (A * |ia|) * (mp.lePrime * ie) = (B * ie) * (mp.lePrime * ie) := by
      linear_combination A * e - h1
    exact mul_right_cancel₀ (by positivity) this
  have h5 : |ia| * ie = |x| * |y| := by
    have e1 : mp.lePrime * (|ia| * ie) = |torque| := by
      rw [← h2, abs_mul, abs_mul, abs_of_pos hl, abs_of_pos hie0]; ring
    have e2 : mp.lePrime * (|x| * |y|) = |torque| := by
      rw [← h3, abs_mul, abs_mul, abs_of_pos hl]; ring
    exact mul_left_cancel₀ hl.ne' (e1.trans e2.symm)
  rw [← hA2, ← hB2, ← sq_abs ia, ← sq_abs x, ← sq_abs y]
  have := sq_nonneg (A * |x| - B * |y|)
  have e : (A * |ia| - B * ie) ^ 2 = 0 := by rw [h4]; ring
  nlinarith [mul_pos hA0 hB0]

/-- a motor with 16 and 4 ohm: 2 Nm are made of 2 A and 4 A -/
example :
    let mp : DcParams ℝ := ⟨16, 4, 1, 1 / 4, 1⟩
    extEx mp 4 2 = (2, 4) := by
  have h1 : √(16 : ℝ) = 4 := by rw [show (16 : ℝ) = 4 ^ 2 by norm_num]; exact Real.sqrt_sq (by norm_num)
  have h2 : √(4 : ℝ) = 2 := by rw [show (4 : ℝ) = 2 ^ 2 by norm_num]; exact Real.sqrt_sq (by norm_num)
  simp only [extEx, h1, h2, Prod.mk.injEq]
  constructor
  · norm_num
  · rw [show 4 * |(2 : ℝ)| / (2 * (1 / 4)) = 16 by norm_num, h1]

/-- C86.  Permanently excited motor: the torque is exact. -/
theorem c86_permEx (mp : PermExParams ℝ) (h : mp.psiE ≠ 0) (torque : ℝ) :
    permExTorque mp ![permEx mp.psiE torque] = torque := by
  simp only [permExTorque, permEx, Matrix.cons_val_zero]
  field_simp

/-- C86 is violated by the permanently excited motor: the limit the voltage sets at a speed is never applied. -/
theorem c86_permEx_violated (psi u r omega : ℝ) (h : psi ≠ 0) : ∃ torque, u / (r + psi * |omega|) < permEx psi torque :=
  ⟨(u / (r + psi * |omega|) + 1) * psi, by rw [permEx, mul_div_cancel_right₀ _ h]; linarith⟩

/-! ## C54: solution of torque and flux equations -/

/-- C54.  Whatever number is taken for the direct current, the pair produces the torque (unless the denominator is 0). -/
theorem c54_torque (mp : SyncParams ℝ) (hp : mp.p ≠ 0) (torque iD eps : ℝ) (h : mp.psiP + (mp.ld - mp.lq) * iD ≠ 0) :
    pmsmTorque mp ![(pmsmSolve mp torque iD).1, (pmsmSolve mp torque iD).2, eps] = torque := by
  simp only [pmsmTorque, pmsmSolve]
  simp
  field_simp

/-- C54, the same for the externally excited motor. -/
theorem c54_torque_eesm (mp : EesmParams ℝ) (hp : mp.p ≠ 0) (hk : mp.k ≠ 0) (torque iE iD eps : ℝ)
    (h : mp.lm * iE + (mp.ld - mp.lq) * iD ≠ 0) :
    eesmTorque mp ![(eesmSolve mp torque iE iD).1, (eesmSolve mp torque iE iD).2, iE, eps] = torque := by
  by_cases h0 : torque = 0 ∧ iE = 0
  · simp [eesmTorque, eesmSolve, h0]
  · simp only [eesmTorque, eesmSolve, if_neg h0, EesmParams.lM, EesmParams.ik]
    simp
    field_simp

/-- C54, the part that holds for the flux: for every real root of the polynomial the flux differs from the wanted one by
`2 (l_d - l_q) psi_p^3 i_d / (psi_p + (l_d - l_q) i_d)^2` (in the square). -/
theorem c54_flux_partial (mp : SyncParams ℝ) (hp : mp.p ≠ 0) (torque psi iD : ℝ)
    (h : mp.psiP + (mp.ld - mp.lq) * iD ≠ 0) (hroot : polyVal (pmsmPoly mp torque psi) iD = 0) :
    (fluxOf mp (pmsmSolve mp torque iD).1 (pmsmSolve mp torque iD).2) ^ 2
      = psi ^ 2 + 2 * (mp.ld - mp.lq) * mp.psiP ^ 3 * iD / (mp.psiP + (mp.ld - mp.lq) * iD) ^ 2 := by
  rw [fluxOf, Real.sq_sqrt (by positivity)]
  simp only [polyVal, pmsmPoly, List.foldl_cons, List.foldl_nil, pmsmSolve] at hroot ⊢
  rw [← sub_eq_zero]
  have e : ((mp.psiP + mp.ld * iD) ^ 2 + (mp.lq * (2 * torque / (3 * mp.p * (mp.psiP + (mp.ld - mp.lq) * iD)))) ^ 2
      - (psi ^ 2 + 2 * (mp.ld - mp.lq) * mp.psiP ^ 3 * iD / (mp.psiP + (mp.ld - mp.lq) * iD) ^ 2))
      * (mp.psiP + (mp.ld - mp.lq) * iD) ^ 2 = 0 := by
    generalize hd : mp.psiP + (mp.ld - mp.lq) * iD = d at h ⊢
    have e1 : (mp.lq * (2 * torque / (3 * mp.p * d))) ^ 2 * d ^ 2 = (mp.lq * 2 * torque / (3 * mp.p)) ^ 2 := by field_simp
    have e2 : 2 * (mp.ld - mp.lq) * mp.psiP ^ 3 * iD / d ^ 2 * d ^ 2 = 2 * (mp.ld - mp.lq) * mp.psiP ^ 3 * iD := by
      field_simp
    rw [sub_mul, add_mul, add_mul, e1, e2, ← hroot, ← hd]
    ring
  exact (mul_eq_zero.mp e).resolve_right (pow_ne_zero 2 h)

/-- C54.  For motors without magnet or with equal inductances the flux is exact. -/
theorem c54_flux (mp : SyncParams ℝ) (hp : mp.p ≠ 0) (torque psi iD : ℝ) (hpsi : 0 ≤ psi)
    (h : mp.psiP + (mp.ld - mp.lq) * iD ≠ 0) (hroot : polyVal (pmsmPoly mp torque psi) iD = 0)
    (hm : mp.psiP = 0 ∨ mp.ld = mp.lq) :
    fluxOf mp (pmsmSolve mp torque iD).1 (pmsmSolve mp torque iD).2 = psi := by
  have := c54_flux_partial mp hp torque psi iD h hroot
  have hz : 2 * (mp.ld - mp.lq) * mp.psiP ^ 3 * iD = 0 := by
    rcases hm with hm | hm
    · rw [hm]; ring
    · rw [hm]; ring
  rw [hz, zero_div, add_zero] at this
  exact (sq_eq_sq₀ (Real.sqrt_nonneg _) hpsi).mp this

/-- C54 is violated by all other synchronous motors: no real root other than 0 gives the wanted flux. -/
theorem c54_flux_violated (mp : SyncParams ℝ) (hp : mp.p ≠ 0) (hpsi : mp.psiP ≠ 0) (hl : mp.ld ≠ mp.lq) (torque psi iD : ℝ)
    (h : mp.psiP + (mp.ld - mp.lq) * iD ≠ 0) (hroot : polyVal (pmsmPoly mp torque psi) iD = 0) (hi : iD ≠ 0) :
    fluxOf mp (pmsmSolve mp torque iD).1 (pmsmSolve mp torque iD).2 ≠ psi := by
  intro e
  have := c54_flux_partial mp hp torque psi iD h hroot
  rw [e] at this
  have hz : 2 * (mp.ld - mp.lq) * mp.psiP ^ 3 * iD / (mp.psiP + (mp.ld - mp.lq) * iD) ^ 2 ≠ 0 :=
    div_ne_zero (mul_ne_zero (mul_ne_zero (mul_ne_zero two_ne_zero (sub_ne_zero.mpr hl)) (pow_ne_zero 3 hpsi)) hi)
      (pow_ne_zero 2 h)
  apply hz
  linarith

/-- a motor with such a root: torque 3/2 and (squared) flux 19/12 -/
example :
    let mp : SyncParams ℝ := ⟨1, 1, 2, 1, 1⟩
    polyVal (pmsmPoly mp (3 / 2) √(19 / 12)) (-1 / 2) = 0 := by
  have h : √(19 / 12 : ℝ) ^ 2 = 19 / 12 := Real.sq_sqrt (by norm_num)
  simp only [polyVal, pmsmPoly, List.foldl_cons, List.foldl_nil, h]
  norm_num

/-- C54 is violated by the externally excited synchronous motor even with equal inductances: the square of the flux is off by
`2 (l_d - l_q) psi^3 i_d / d^2 + 3 (l_q T / (3 p d))^2` with `d = l_m i_e + (l_d - l_q) i_d`. -/
theorem c54_flux_eesm_violated (mp : EesmParams ℝ) (hp : mp.p ≠ 0) (torque psi iE iD : ℝ) (h0 : ¬ (torque = 0 ∧ iE = 0))
    (h : mp.lm * iE + (mp.ld - mp.lq) * iD ≠ 0) (hroot : polyVal (eesmPoly mp iE psi torque) iD = 0) :
    (mp.lm * iE + mp.ld * (eesmSolve mp torque iE iD).1) ^ 2 + (mp.lq * (eesmSolve mp torque iE iD).2) ^ 2
      = psi ^ 2 + (2 * (mp.ld - mp.lq) * (mp.lm * iE) ^ 3 * iD + 3 * (mp.lq * torque / (3 * mp.p)) ^ 2)
        / (mp.lm * iE + (mp.ld - mp.lq) * iD) ^ 2 := by
  simp only [polyVal, eesmPoly, List.foldl_cons, List.foldl_nil, eesmSolve, if_neg h0] at hroot ⊢
  rw [← sub_eq_zero]
  have e : ((mp.lm * iE + mp.ld * iD) ^ 2 + (mp.lq * (2 * torque / (3 * mp.p * (mp.lm * iE + (mp.ld - mp.lq) * iD)))) ^ 2
      - (psi ^ 2 + (2 * (mp.ld - mp.lq) * (mp.lm * iE) ^ 3 * iD + 3 * (mp.lq * torque / (3 * mp.p)) ^ 2)
        / (mp.lm * iE + (mp.ld - mp.lq) * iD) ^ 2))
      * (mp.lm * iE + (mp.ld - mp.lq) * iD) ^ 2 = 0 := by
    generalize hd : mp.lm * iE + (mp.ld - mp.lq) * iD = d at h ⊢
    have e1 : (mp.lq * (2 * torque / (3 * mp.p * d))) ^ 2 * d ^ 2 = 4 * (mp.lq * torque / (3 * mp.p)) ^ 2 := by
      field_simp
      ring
    have e2 : (2 * (mp.ld - mp.lq) * (mp.lm * iE) ^ 3 * iD + 3 * (mp.lq * torque / (3 * mp.p)) ^ 2) / d ^ 2 * d ^ 2
        = 2 * (mp.ld - mp.lq) * (mp.lm * iE) ^ 3 * iD + 3 * (mp.lq * torque / (3 * mp.p)) ^ 2 :=
      div_mul_cancel₀ _ (pow_ne_zero 2 h)
    rw [sub_mul, add_mul, add_mul, e1, e2, ← hroot, ← hd]
    ring
  exact (mul_eq_zero.mp e).resolve_right (pow_ne_zero 2 h)

/-! ## C87: tables of the synchronous motors -/

theorem firstMin_spec {α : Type} (f : α → ℝ) (l : List α) :
    (∀ k a, firstMin f l = some (k, a) → l[k]? = some a ∧ ∀ b ∈ l, f a ≤ f b) ∧ (l ≠ [] → ∃ v, firstMin f l = some v) := by
  induction l with
  | nil => simp [firstMin]
  | cons x l ih =>
    constructor
    · intro k a h
      simp only [firstMin] at h
      split at h
      · rename_i hn
        have : l = [] := by
          by_contra hl
          obtain ⟨v, hv⟩ := ih.2 hl
          rw [hv] at hn
          exact absurd hn (by simp)
        obtain ⟨rfl, rfl⟩ := Prod.mk.inj (Option.some.inj h)
        simp [this]
      · rename_i j b hb
        obtain ⟨h1, h2⟩ := ih.1 j b hb
        split at h
        · rename_i hlt
          obtain ⟨rfl, rfl⟩ := Prod.mk.inj (Option.some.inj h)
          refine ⟨by simpa using h1, fun c hc => ?_⟩
          rcases List.mem_cons.mp hc with rfl | hc
          · exact hlt.le
          · exact h2 c hc
        · rename_i hlt
          obtain ⟨rfl, rfl⟩ := Prod.mk.inj (Option.some.inj h)
          refine ⟨rfl, fun c hc => ?_⟩
          rcases List.mem_cons.mp hc with rfl | hc
          · exact le_refl _
          · exact (not_lt.mp hlt).trans (h2 c hc)
    · intro _
      simp only [firstMin]
      split
      · exact ⟨_, rfl⟩
      · split <;> exact ⟨_, rfl⟩

theorem sign_pos {x : ℝ} (h : 0 < x) : sign x = 1 := if_pos h
theorem sign_neg {x : ℝ} (h : x < 0) : sign x = -1 := by rw [sign, Ctl.sgn, if_neg (by linarith), if_pos h]
theorem sign_zero : sign 0 = 0 := by simp [sign, Ctl.sgn]

theorem sign_mul_abs (x : ℝ) : sign x * |x| = x := by
  rcases lt_trichotomy x 0 with h | rfl | h
  · rw [sign_neg h, abs_of_neg h]; ring
  · simp
  · rw [sign_pos h, abs_of_pos h]; ring

theorem sign_mul_of_pos {a : ℝ} (h : 0 < a) (x : ℝ) : sign (a * x) = sign x := by
  rcases lt_trichotomy x 0 with hx | rfl | hx
  · rw [sign_neg hx, sign_neg (mul_neg_of_pos_of_neg h hx)]
  · simp
  · rw [sign_pos hx, sign_pos (mul_pos h hx)]

theorem sign_mul_of_neg {a : ℝ} (h : a < 0) (x : ℝ) : sign (a * x) = -sign x := by
  rcases lt_trichotomy x 0 with hx | rfl | hx
  · rw [sign_neg hx, sign_pos (mul_pos_of_neg_of_neg h hx)]; ring
  · simp [sign_zero]
  · rw [sign_pos hx, sign_neg (mul_neg_of_neg_of_pos h hx)]

/-- the torque of a pair of currents -/
noncomputable def torqueOf (mp : SyncParams ℝ) (iD iQ : ℝ) : ℝ := pmsmTorque mp ![iD, iQ, 0]

theorem torqueOf_eq (mp : SyncParams ℝ) (iD iQ : ℝ) :
    torqueOf mp iD iQ = 3 / 2 * mp.p * (mp.psiP + (mp.ld - mp.lq) * iD) * iQ := by
  simp [torqueOf, pmsmTorque]

/-- with a magnet: the row for every sign of the saliency -/
theorem mtpc_magnet (mp : SyncParams ℝ) (hp : 0 < mp.p) (hpsi : mp.psiP ≠ 0) (hl : mp.ld ≠ mp.lq) (grid : List ℝ)
    (hg : grid ≠ []) (hd : ∀ x ∈ grid, 0 < x * (mp.ld - mp.lq) + mp.psiP) (t : ℝ) :
    ∃ r, mtpcRow mp grid t = some r ∧ r.t = t ∧ r.iD ∈ grid ∧ r.psi = fluxOf mp r.iD r.iQ
      ∧ torqueOf mp r.iD r.iQ = sign (mp.lq - mp.ld) * t
      ∧ ∀ x ∈ grid, ∀ y, torqueOf mp x y = t → r.iD ^ 2 + r.iQ ^ 2 ≤ x ^ 2 + y ^ 2 := by
  obtain ⟨⟨k, v⟩, hv⟩ := (firstMin_spec (fun v : ℝ × ℝ => v.1 ^ 2 + v.2 ^ 2) (mtpcPairs mp grid t)).2 (by
    simp [mtpcPairs, hpsi, hg])
  obtain ⟨h1, h2⟩ := (firstMin_spec (fun v : ℝ × ℝ => v.1 ^ 2 + v.2 ^ 2) (mtpcPairs mp grid t)).1 k v hv
  have hm : v ∈ mtpcPairs mp grid t := List.mem_of_getElem? h1
  simp only [mtpcPairs, if_neg hpsi, List.mem_map] at hm
  obtain ⟨x, hx, rfl⟩ := hm
  have hdx := hd x hx
  refine ⟨_, by rw [mtpcRow, if_neg hl, hv], rfl, hx, rfl, ?_, ?_⟩
  · simp only [torqueOf_eq]
    have e : sign ((mp.lq - mp.ld) * t) * |t / (x * (mp.ld - mp.lq) + mp.psiP) / (3 / 2 * mp.p)|
        = sign (mp.lq - mp.ld) * (t / (x * (mp.ld - mp.lq) + mp.psiP) / (3 / 2 * mp.p)) := by
      rw [abs_div, abs_div, abs_of_pos hdx, abs_of_pos (show 0 < 3 / 2 * mp.p by positivity), ← mul_div_assoc, ← mul_div_assoc,
        ← mul_div_assoc, ← mul_div_assoc]
      congr 2
      rcases lt_or_gt_of_ne (sub_ne_zero.mpr (Ne.symm hl)) with h | h
      · rw [sign_mul_of_neg h, sign_neg h, neg_mul, sign_mul_abs]; ring
      · rw [sign_mul_of_pos h, sign_pos h, sign_mul_abs]; ring
    rw [e]
    have : mp.psiP + (mp.ld - mp.lq) * x ≠ 0 := by
      have : mp.psiP + (mp.ld - mp.lq) * x = x * (mp.ld - mp.lq) + mp.psiP := by ring
      rw [this]; exact hdx.ne'
    rw [show x * (mp.ld - mp.lq) + mp.psiP = mp.psiP + (mp.ld - mp.lq) * x by ring]
    field_simp
  · intro x' hx' y hy
    have hdx' := hd x' hx'
    have hb := h2 _ (by
      simp only [mtpcPairs, if_neg hpsi, List.mem_map]
      exact ⟨x', hx', rfl⟩)
    have e : y = t / (x' * (mp.ld - mp.lq) + mp.psiP) / (3 / 2 * mp.p) := by
      rw [← hy, torqueOf_eq, show mp.psiP + (mp.ld - mp.lq) * x' = x' * (mp.ld - mp.lq) + mp.psiP by ring]
      field_simp
    simp only at hb
    rw [← e] at hb
    refine le_trans ?_ hb
    have hs : sign ((mp.lq - mp.ld) * t) ^ 2 ≤ 1 := by
      rcases lt_trichotomy ((mp.lq - mp.ld) * t) 0 with h | h | h
      · rw [sign_neg h]; norm_num
      · rw [h, sign_zero]; norm_num
      · rw [sign_pos h]; norm_num
    simp only [mul_pow, sq_abs]
    nlinarith [sq_nonneg (t / (x * (mp.ld - mp.lq) + mp.psiP) / (3 / 2 * mp.p))]

/-- C87.  With a magnet and `l_d < l_q` every row of the MTPC table produces its torque with the smallest current of all pairs
with this torque whose direct current is in the sampled grid. -/
theorem c87_mtpc_partial (mp : SyncParams ℝ) (hp : 0 < mp.p) (hpsi : 0 < mp.psiP) (hl : mp.ld < mp.lq) (grid : List ℝ)
    (hg : grid ≠ []) (hneg : ∀ x ∈ grid, x ≤ 0) (t : ℝ) :
    ∃ r, mtpcRow mp grid t = some r ∧ r.t = t ∧ r.psi = fluxOf mp r.iD r.iQ ∧ torqueOf mp r.iD r.iQ = t
      ∧ ∀ x ∈ grid, ∀ y, torqueOf mp x y = t → r.iD ^ 2 + r.iQ ^ 2 ≤ x ^ 2 + y ^ 2 := by
  obtain ⟨r, h1, h2, _, h3, h4, h5⟩ := mtpc_magnet mp hp hpsi.ne' hl.ne grid hg (fun x hx => by
    nlinarith [hneg x hx]) t
  exact ⟨r, h1, h2, h3, by rw [h4, sign_pos (by linarith)]; ring, h5⟩

/-- C87.  Equal inductances: the torque is made with the quadrature current alone, and no pair of currents is smaller. -/
theorem c87_mtpc_equal (mp : SyncParams ℝ) (hp : 0 < mp.p) (hpsi : mp.psiP ≠ 0) (hl : mp.ld = mp.lq) (grid : List ℝ) (t : ℝ) :
    ∃ r, mtpcRow mp grid t = some r ∧ r.t = t ∧ r.psi = fluxOf mp r.iD r.iQ ∧ torqueOf mp r.iD r.iQ = t
      ∧ ∀ x y, torqueOf mp x y = t → r.iD ^ 2 + r.iQ ^ 2 ≤ x ^ 2 + y ^ 2 := by
  refine ⟨_, by rw [mtpcRow, if_pos hl, if_neg hpsi], rfl, rfl, ?_, ?_⟩
  · simp only [torqueOf_eq, hl]
    simp
    field_simp
  · intro x y h
    rw [torqueOf_eq, hl, sub_self, zero_mul, add_zero] at h
    have : t / (0 * (mp.ld - mp.lq) + mp.psiP) / (3 / 2 * mp.p) = y := by
      rw [← h]
      simp
      field_simp
    simp only [this]
    nlinarith [sq_nonneg x]

/-- C87.  Without a magnet: the same for pairs whose quadrature current is in the grid, whatever the sign of the saliency. -/
theorem c87_mtpc_reluctance (mp : SyncParams ℝ) (hp : 0 < mp.p) (hpsi : mp.psiP = 0) (hl : mp.ld ≠ mp.lq) (grid : List ℝ)
    (hg : grid ≠ []) (h0 : ∀ y ∈ grid, y ≠ 0) (t : ℝ) :
    ∃ r, mtpcRow mp grid t = some r ∧ r.t = t ∧ r.psi = fluxOf mp r.iD r.iQ ∧ torqueOf mp r.iD r.iQ = t
      ∧ ∀ y ∈ grid, ∀ x, torqueOf mp x y = t → r.iD ^ 2 + r.iQ ^ 2 ≤ x ^ 2 + y ^ 2 := by
  obtain ⟨⟨k, v⟩, hv⟩ := (firstMin_spec (fun v : ℝ × ℝ => v.1 ^ 2 + v.2 ^ 2) (mtpcPairs mp grid t)).2 (by
    simp [mtpcPairs, hpsi, hg])
  obtain ⟨h1, h2⟩ := (firstMin_spec (fun v : ℝ × ℝ => v.1 ^ 2 + v.2 ^ 2) (mtpcPairs mp grid t)).1 k v hv
  have hm : v ∈ mtpcPairs mp grid t := List.mem_of_getElem? h1
  simp only [mtpcPairs, if_pos hpsi, List.mem_map] at hm
  obtain ⟨y, hy, rfl⟩ := hm
  have hy0 := h0 y hy
  have hs : mp.ld - mp.lq ≠ 0 := sub_ne_zero.mpr hl
  refine ⟨_, by rw [mtpcRow, if_neg hl, hv], rfl, rfl, ?_, ?_⟩
  · simp only [torqueOf_eq, hpsi, zero_add]
    rw [abs_div, abs_mul, abs_mul, abs_of_pos (show 0 < 3 / 2 * mp.p by positivity)]
    have hy1 : |y| ≠ 0 := abs_ne_zero.mpr hy0
    rcases lt_or_gt_of_ne hs with h | h
    · rw [abs_of_neg h, sign_mul_of_pos (by linarith)]
      have e : 3 / 2 * mp.p * ((mp.ld - mp.lq) * -(|t| / (3 / 2 * mp.p * -(mp.ld - mp.lq) * |y|))) * (sign t * |y|)
          = sign t * |t| := by field_simp
      rw [e, sign_mul_abs]
    · rw [abs_of_pos h, sign_mul_of_neg (by linarith)]
      have e : 3 / 2 * mp.p * ((mp.ld - mp.lq) * -(|t| / (3 / 2 * mp.p * (mp.ld - mp.lq) * |y|))) * (-sign t * |y|)
          = sign t * |t| := by field_simp
      rw [e, sign_mul_abs]
  · intro y' hy' x hx
    have hb := h2 _ (by
      simp only [mtpcPairs, if_pos hpsi, List.mem_map]
      exact ⟨y', hy', rfl⟩)
    have hy1 := h0 y' hy'
    have e : x = t / (3 / 2 * mp.p * (mp.ld - mp.lq) * y') := by
      rw [← hx, torqueOf_eq, hpsi]
      field_simp
      ring
    simp only at hb
    rw [← e, neg_sq, neg_sq, sq_abs, sq_abs] at hb
    refine le_trans ?_ hb
    have hs : sign ((mp.lq - mp.ld) * t) ^ 2 ≤ 1 := by
      rcases lt_trichotomy ((mp.lq - mp.ld) * t) 0 with h | h | h
      · rw [sign_neg h]; norm_num
      · rw [h, sign_zero]; norm_num
      · rw [sign_pos h]; norm_num
    simp only [mul_pow, sq_abs, neg_sq]
    nlinarith [sq_nonneg y]

/-- The grid of the code has no 0: its number of values is even. -/
theorem c87_grid (a : ℝ) (ha : a ≠ 0) (n : ℕ) (hn : 2 ≤ n) (he : Even n) : ∀ y ∈ linspace (-a) a n, y ≠ 0 := by
  intro y hy h
  simp only [linspace, List.mem_map, List.mem_range] at hy
  obtain ⟨k, hk, rfl⟩ := hy
  have hn1 : (n : ℝ) - 1 ≠ 0 := by
    have : (2 : ℝ) ≤ n := by exact_mod_cast hn
    linarith
  have e : a * (2 * k - (n - 1)) = 0 := by
    have : (-a + k * ((a - -a) / ((n : ℝ) - 1))) * (n - 1) = 0 := by rw [h, zero_mul]
    field_simp at this
    linarith
  have e2 : (2 * k : ℝ) = n - 1 := by
    rcases mul_eq_zero.mp e with h | h
    · exact absurd h ha
    · linarith
  have e3 : 2 * k + 1 = n := by
    have : ((2 * k + 1 : ℕ) : ℝ) = n := by push_cast; linarith
    exact_mod_cast this
  rcases he with ⟨m, rfl⟩
  omega

/-- C87 is violated by motors with a magnet and `l_d > l_q`: as long as the denominators are positive every row produces the
negative of its torque. -/
theorem c87_mtpc_violated (mp : SyncParams ℝ) (hp : 0 < mp.p) (hpsi : mp.psiP ≠ 0) (hl : mp.lq < mp.ld) (grid : List ℝ)
    (hg : grid ≠ []) (hd : ∀ x ∈ grid, 0 < x * (mp.ld - mp.lq) + mp.psiP) (t : ℝ) :
    ∃ r, mtpcRow mp grid t = some r ∧ r.t = t ∧ torqueOf mp r.iD r.iQ = -t := by
  obtain ⟨r, h1, h2, _, _, h4, _⟩ := mtpc_magnet mp hp hpsi hl.ne' grid hg hd t
  exact ⟨r, h1, h2, by rw [h4, sign_neg (by linarith)]; ring⟩

/-- a motor and a grid of this kind -/
example : ∀ x ∈ ([-1, 0] : List ℝ), 0 < x * ((2 : ℝ) - 1) + 3 := by
  intro x hx
  rcases List.mem_cons.mp hx with rfl | hx
  · norm_num
  · rw [List.mem_singleton.mp hx]; norm_num

/-- C87.  Row of the MTPF table of a motor without magnet: the flux is the flux of the row. -/
theorem c87_mtpf_partial (mp : SyncParams ℝ) (hpsi : mp.psiP = 0) (hl : 0 < mp.ld) (psi : ℝ) (h : 0 ≤ psi) :
    fluxOf mp (mtpfReluctance mp psi).1 (mtpfReluctance mp psi).2 = psi := by
  have hs : 0 < mp.ld ^ 2 + mp.lq ^ 2 := by positivity
  have h2 := Real.sq_sqrt hs.le
  have h0 : √(mp.ld ^ 2 + mp.lq ^ 2) ≠ 0 := (Real.sqrt_pos.mpr hs).ne'
  rw [fluxOf, hpsi]
  simp only [mtpfReluctance]
  rw [show (0 + mp.ld * -(psi / √(mp.ld ^ 2 + mp.lq ^ 2))) ^ 2 + (mp.lq * (psi / √(mp.ld ^ 2 + mp.lq ^ 2))) ^ 2 = psi ^ 2 by
    rw [show (0 + mp.ld * -(psi / √(mp.ld ^ 2 + mp.lq ^ 2))) ^ 2 + (mp.lq * (psi / √(mp.ld ^ 2 + mp.lq ^ 2))) ^ 2
      = (mp.ld ^ 2 + mp.lq ^ 2) * psi ^ 2 / √(mp.ld ^ 2 + mp.lq ^ 2) ^ 2 by field_simp; ring, h2]
    field_simp]
  exact Real.sqrt_sq h

/-- C87 is violated by the MTPF table of every salient motor without magnet: the torque of the row is smaller than the torque
another pair of currents reaches with the same flux. -/
theorem c87_mtpf_violated (mp : SyncParams ℝ) (hp : 0 < mp.p) (hpsi : mp.psiP = 0) (hd : 0 < mp.ld) (hq : 0 < mp.lq)
    (hl : mp.ld ≠ mp.lq) (psi : ℝ) (h : 0 < psi) :
    ∃ x y, fluxOf mp x y = psi ∧ |torqueOf mp (mtpfReluctance mp psi).1 (mtpfReluctance mp psi).2| < torqueOf mp x y := by
  have hs : 0 < mp.ld ^ 2 + mp.lq ^ 2 := by positivity
  have h2 := Real.sq_sqrt hs.le
  have h3 : √(2 : ℝ) ^ 2 = 2 := Real.sq_sqrt (by norm_num)
  have h30 : (0 : ℝ) < √2 := Real.sqrt_pos.mpr (by norm_num)
  have h0 : 0 < √(mp.ld ^ 2 + mp.lq ^ 2) := Real.sqrt_pos.mpr hs
  have hne : mp.ld - mp.lq ≠ 0 := sub_ne_zero.mpr hl
  refine ⟨-(psi / (√2 * mp.ld)), sign (mp.lq - mp.ld) * (psi / (√2 * mp.lq)), ?_, ?_⟩
  · have hsg : sign (mp.lq - mp.ld) ^ 2 = 1 := by
      rcases lt_or_gt_of_ne (sub_ne_zero.mpr (Ne.symm hl)) with h | h
      · rw [sign_neg h]; norm_num
      · rw [sign_pos h]; norm_num
    rw [fluxOf, hpsi]
    rw [show (0 + mp.ld * -(psi / (√2 * mp.ld))) ^ 2 + (mp.lq * (sign (mp.lq - mp.ld) * (psi / (√2 * mp.lq)))) ^ 2
      = psi ^ 2 / √2 ^ 2 + sign (mp.lq - mp.ld) ^ 2 * (psi ^ 2 / √2 ^ 2) by field_simp; ring, hsg, h3,
      show psi ^ 2 / 2 + 1 * (psi ^ 2 / 2) = psi ^ 2 by ring]
    exact Real.sqrt_sq h.le
  · have e1 : |torqueOf mp (mtpfReluctance mp psi).1 (mtpfReluctance mp psi).2|
        = 3 / 2 * mp.p * |mp.ld - mp.lq| * psi ^ 2 * (1 / (mp.ld ^ 2 + mp.lq ^ 2)) := by
      rw [torqueOf_eq, hpsi]
      simp only [mtpfReluctance]
      rw [show 3 / 2 * mp.p * (0 + (mp.ld - mp.lq) * -(psi / √(mp.ld ^ 2 + mp.lq ^ 2))) * (psi / √(mp.ld ^ 2 + mp.lq ^ 2))
        = -((mp.ld - mp.lq) * (3 / 2 * mp.p * psi ^ 2 / √(mp.ld ^ 2 + mp.lq ^ 2) ^ 2)) by field_simp; ring, h2, abs_neg, abs_mul,
        abs_of_pos (show 0 < 3 / 2 * mp.p * psi ^ 2 / (mp.ld ^ 2 + mp.lq ^ 2) by positivity)]
      field_simp
    have e2 : torqueOf mp (-(psi / (√2 * mp.ld))) (sign (mp.lq - mp.ld) * (psi / (√2 * mp.lq)))
        = 3 / 2 * mp.p * |mp.ld - mp.lq| * psi ^ 2 * (1 / (2 * mp.ld * mp.lq)) := by
      have : |mp.ld - mp.lq| = (mp.lq - mp.ld) * sign (mp.lq - mp.ld) := by
        rcases lt_or_gt_of_ne (sub_ne_zero.mpr (Ne.symm hl)) with h | h
        · rw [sign_neg h, abs_of_pos (by linarith)]; ring
        · rw [sign_pos h, abs_of_neg (by linarith)]; ring
      rw [torqueOf_eq, hpsi, this,
        show 3 / 2 * mp.p * (0 + (mp.ld - mp.lq) * -(psi / (√2 * mp.ld))) * (sign (mp.lq - mp.ld) * (psi / (√2 * mp.lq)))
          = 3 / 2 * mp.p * ((mp.lq - mp.ld) * sign (mp.lq - mp.ld)) * psi ^ 2 * (1 / (√2 ^ 2 * mp.ld * mp.lq)) by
          field_simp; ring, h3]
    rw [e1, e2]
    apply mul_lt_mul_of_pos_left
    · apply one_div_lt_one_div_of_lt (by positivity)
      nlinarith [sq_pos_of_ne_zero hne]
    · have := abs_pos.mpr hne
      positivity

/-- C87 is violated by the online selection of a reluctance motor with `l_d > l_q` (also the default one) whenever the solution
of the equations is taken: the torque has the wrong direction. -/
theorem c87_online_violated (c : Sync) (hp : c.mp.p ≠ 0) (hpsi : c.mp.psiP = 0) (hl : c.mp.lq < c.mp.ld)
    (root : ℝ → ℝ → ℝ) (psiMod torque : ℝ) (opt f : Row)
    (h1 : at? c.mtpc (idxMtpc c.maxTorque c.tCount torque) = .ok opt)
    (h2 : at? c.mtpf (idxMtpf c.psiMaxMtpf c.psiCount (min opt.psi psiMod)) = .ok f) (ht : |torque| ≤ |f.t|)
    (hr1 : root torque (min opt.psi psiMod) ≤ opt.iD) (hr2 : f.iD ≤ root torque (min opt.psi psiMod))
    (h0 : root torque (min opt.psi psiMod) ≠ 0) :
    ∃ x y, selectOnline c root psiMod torque = .ok (x, y) ∧ torqueOf c.mp x y = -torque := by
  have hd : (c.mp.ld - c.mp.lq) ≠ 0 := by
    intro h
    linarith
  refine ⟨root torque (min opt.psi psiMod), -(pmsmSolve c.mp torque (root torque (min opt.psi psiMod))).2, ?_, ?_⟩
  · simp only [selectOnline, h1, h2, if_neg (not_lt.mpr ht)]
    simp [pmsmSolve, not_lt.mpr hr1, not_lt.mpr hr2, invert, hpsi, hl]
  · rw [torqueOf_eq, pmsmSolve, hpsi]
    simp only [zero_add]
    field_simp

/-- C87, the part that holds: with a magnet, or with `l_d` at most `l_q`, the solution of the equations produces the torque. -/
theorem c87_online_partial (c : Sync) (hp : c.mp.p ≠ 0) (hl : c.mp.psiP ≠ 0 ∨ c.mp.ld ≤ c.mp.lq)
    (root : ℝ → ℝ → ℝ) (psiMod torque : ℝ) (opt f : Row)
    (h1 : at? c.mtpc (idxMtpc c.maxTorque c.tCount torque) = .ok opt)
    (h2 : at? c.mtpf (idxMtpf c.psiMaxMtpf c.psiCount (min opt.psi psiMod)) = .ok f) (ht : |torque| ≤ |f.t|)
    (hr1 : root torque (min opt.psi psiMod) ≤ opt.iD) (hr2 : f.iD ≤ root torque (min opt.psi psiMod))
    (h0 : c.mp.psiP + (c.mp.ld - c.mp.lq) * root torque (min opt.psi psiMod) ≠ 0) :
    ∃ x y, selectOnline c root psiMod torque = .ok (x, y) ∧ torqueOf c.mp x y = torque := by
  refine ⟨root torque (min opt.psi psiMod), (pmsmSolve c.mp torque (root torque (min opt.psi psiMod))).2, ?_, ?_⟩
  · simp only [selectOnline, h1, h2, if_neg (not_lt.mpr ht)]
    have : invert c.mp = 1 := by
      rw [invert, if_neg]
      rintro ⟨a, b⟩
      rcases hl with hl | hl
      · exact hl a
      · linarith
    simp [pmsmSolve, not_lt.mpr hr1, not_lt.mpr hr2, this]
  · rw [torqueOf_eq]
    have := c54_torque c.mp hp torque _ 0 h0
    simpa [pmsmTorque, pmsmSolve] using this

end GEM.Props
