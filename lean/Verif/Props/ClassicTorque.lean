import Verif.Model.ClassicTorque
import Verif.Props.ClassicWindup
import Verif.Props.FluxTable
import Verif.Props.Windup

/-!
# C130: the conversion of torques to currents of the classic controllers
-/

set_option linter.unusedSectionVars false

namespace GEM.Props

open GEM GEM.Classic GEM.Motor GEM.Ops

/-! ## Lookups -/

theorem at?_same_length {α β : Type} {l : List α} {l' : List β} (h : l.length = l'.length) {i : ℤ} {a : α} (hi : at? l i = .ok a) :
    ∃ b, at? l' i = .ok b := by
  have hlt : i.toNat < l.length := by
    by_contra hn
    rw [at?, List.getElem?_eq_none (not_lt.mp hn)] at hi
    exact absurd hi (by simp)
  exact ⟨l'[i.toNat]'(h ▸ hlt), by rw [at?, List.getElem?_eq_getElem (h ▸ hlt)]⟩

theorem linspace_length (a b : ℝ) (n : ℕ) : (linspace a b n).length = n := by simp [linspace]

/-! ## Induction motors -/

/-- Sizes of the tables, as the constructor makes them. -/
structure ImTorque.Tabled (c : ImTorque) : Prop where
  tMax : 0 < c.tMax
  psiMax : 0 < c.psiMax
  count : 2 ≤ c.tCount ∧ 2 ≤ c.psiCount
  psiOpt : c.psiOpt.length = c.tCount
  tMaxPsi : c.tMaxPsi.length = 2 * c.psiCount

/-- the tables of the constructor have these sizes -/
theorem imTables_tabled (mp : ImParams ℝ) (nomD nomQ limD limQ limT nomU nomOmega limUa tau : ℝ) (omega uSd uSq : ℕ)
    (limOmega limUd limUq : ℝ) (h : 0 < limT) (hp : 0 < (imPsiOpt mp limD limT 1001).foldl max 0) :
    ImTorque.Tabled (imTables mp nomD nomQ limD limQ limT nomU nomOmega limUa tau omega uSd uSq limOmega limUd limUq) where
  tMax := h
  psiMax := by simpa only [imTables] using hp
  count := by unfold imTables; norm_num
  psiOpt := by unfold imTables imPsiOpt; rw [List.length_map, linspace_length]
  tMaxPsi := by
    unfold imTables imTMax
    dsimp only
    rw [List.length_append, List.length_map, List.length_map, List.length_reverse, List.length_map, linspace_length]

/-- the two lookups of a call find something -/
theorem im_lookups (c : ImTorque) (h : ImTorque.Tabled c) (torque : ℝ) :
    (∃ opt, at? c.psiOpt (idxPsiOpt c.tMax c.tCount torque) = .ok opt) ∧
      ∀ psi, ∃ t, at? c.tMaxPsi (c.psiCount - idxTMax c.psiMax c.psiCount psi) = .ok t := by
  constructor
  · obtain ⟨x, hx, -⟩ := c88_psiOpt c.tMax h.tMax c.tCount h.count.1 torque
    exact at?_same_length (by rw [linspace_length, h.psiOpt]) hx
  · intro psi
    obtain ⟨x, hx⟩ := c88_tMax_partial c.psiMax h.psiMax c.psiCount h.count.2 psi
    refine at?_same_length ?_ hx
    rw [h.tMaxPsi, tMaxFluxes, List.length_append, List.length_reverse, linspace_length]
    ring

/-- what a call does, in one line -/
theorem im_control_eq (c : ImTorque) (h : ImTorque.Tabled c) (psiAbs : ℝ) (st : Cont ℝ × ℝ) (s : ℕ → ℝ) (torque : ℝ) :
    ∃ opt tLim, at? c.psiOpt (idxPsiOpt c.tMax c.tCount torque) = .ok opt ∧
      at? c.tMaxPsi (c.psiCount - idxTMax c.psiMax c.psiCount (min opt (c.modulation st.2 s).2)) = .ok tLim ∧
      c.control psiAbs st s torque =
        (let want := min opt (c.modulation st.2 s).2
         let y := st.1.control psiAbs want
         let isd := clip y.2 (-(9 / 10 * c.nomD)) (9 / 10 * c.nomD)
         ((if y.2 = isd then y.1.integrate psiAbs want else y.1, (c.modulation st.2 s).1),
           .ok ((tLim.bind fun t => c.iSq (clip torque (-|t|) |t|) psiAbs isd).map fun i => i / c.limQ, isd / c.limD, want))) := by
  obtain ⟨⟨opt, h1⟩, h2⟩ := im_lookups c h torque
  obtain ⟨t, h3⟩ := h2 (min opt (c.modulation st.2 s).2)
  exact ⟨opt, t, h1, h3, by simp only [ImTorque.control, h1, h3]⟩

/-- C130.  No call of the conversion of an induction motor raises an exception, whatever state, torque and flux are. -/
theorem c130_im_answers (c : ImTorque) (h : ImTorque.Tabled c) (psiAbs : ℝ) (st : Cont ℝ × ℝ) (s : ℕ → ℝ) (torque : ℝ) :
    ∃ q d psi, (c.control psiAbs st s torque).2 = .ok (q, d, psi) := by
  obtain ⟨opt, t, -, -, e⟩ := im_control_eq c h psiAbs st s torque
  rw [e]
  exact ⟨_, _, _, rfl⟩

theorem iSq_circle (c : ImTorque) (hq : 0 ≤ c.nomQ) (torque psiAbs isd q : ℝ) (h : c.iSq torque psiAbs isd = some q) :
    q ^ 2 + isd ^ 2 ≤ c.nomQ ^ 2 := by
  simp only [ImTorque.iSq] at h
  split_ifs at h with h1 h2
  · rw [← Option.some.inj h, mul_pow, Real.sq_sqrt h2]
    have hs : sign (clip (torque / max psiAbs (1 / 1000) * 2 / 3 / c.mp.p * c.mp.lr / c.mp.lm) (-c.nomQ) c.nomQ) ^ 2 ≤ 1 := by
      simp only [sign, Ctl.sgn]
      split_ifs <;> norm_num
    nlinarith
  · rw [← Option.some.inj h]
    have := Real.sqrt_le_left hq |>.mp (not_lt.mp h1)
    exact this

/-- C130.  The currents answered for an induction motor are, together, never larger than the nominal current, and the direct current not
larger than 0.9 times its nominal value: for every state, torque and flux, whatever happened before. -/
theorem c130_im_circle (c : ImTorque) (h : ImTorque.Tabled c) (hd : 0 ≤ c.nomD) (hq : 0 ≤ c.nomQ) (hl : c.limD ≠ 0) (hl' : c.limQ ≠ 0)
    (psiAbs : ℝ) (st : Cont ℝ × ℝ) (s : ℕ → ℝ) (torque q d psi : ℝ)
    (ha : (c.control psiAbs st s torque).2 = .ok (some q, d, psi)) :
    (q * c.limQ) ^ 2 + (d * c.limD) ^ 2 ≤ c.nomQ ^ 2 ∧ |d * c.limD| ≤ 9 / 10 * c.nomD := by
  obtain ⟨opt, t, -, -, e⟩ := im_control_eq c h psiAbs st s torque
  rw [e] at ha
  dsimp only at ha
  obtain ⟨h1, h2⟩ := Prod.mk.inj (Except.ok.inj ha)
  obtain ⟨h2, -⟩ := Prod.mk.inj h2
  obtain ⟨isd, hisd⟩ : ∃ x, x = clip (st.1.control psiAbs (min opt (c.modulation st.2 s).2)).2 (-(9 / 10 * c.nomD)) (9 / 10 * c.nomD) :=
    ⟨_, rfl⟩
  rw [← hisd] at h1 h2
  have e2 : d * c.limD = isd := by rw [← h2]; field_simp
  have e3 : |isd| ≤ 9 / 10 * c.nomD := by rw [hisd]; exact clip_abs (by linarith)
  obtain ⟨i, hi, e1⟩ := Option.map_eq_some_iff.mp h1
  obtain ⟨t', -, hi⟩ := Option.bind_eq_some_iff.mp hi
  have e1 : q * c.limQ = i := by rw [← e1]; field_simp
  rw [e1, e2]
  exact ⟨iSq_circle c hq _ _ _ _ hi, e3⟩

/-- the answered current is a number -/
theorem iSq_number (c : ImTorque) (torque psiAbs isd : ℝ) (h : isd ^ 2 ≤ c.nomQ ^ 2) : ∃ q, c.iSq torque psiAbs isd = some q := by
  simp only [ImTorque.iSq]
  rw [if_pos (sub_nonneg.mpr h)]
  split_ifs <;> exact ⟨_, rfl⟩

/-- C130.  If the nominal voltage suffices for the largest flux at the nominal speed, the answers are numbers. -/
theorem c130_im_number_partial (c : ImTorque) (h : ImTorque.Tabled c) (nomU nomOmega : ℝ)
    (ht : c.tMaxPsi = imTMax c.mp nomU nomOmega c.psiMax c.psiCount) (hd : 0 ≤ c.nomD) (hdq : 9 / 10 * c.nomD ≤ c.nomQ)
    (hu : (c.psiMax / c.mp.lm) ^ 2 ≤ nomU ^ 2 / (nomOmega ^ 2 * c.mp.ls ^ 2)) (psiAbs : ℝ) (st : Cont ℝ × ℝ) (s : ℕ → ℝ) (torque : ℝ) :
    ∃ q d psi, (c.control psiAbs st s torque).2 = .ok (some q, d, psi) := by
  obtain ⟨opt, t, -, h2, e⟩ := im_control_eq c h psiAbs st s torque
  have hrow : ∀ x ∈ linspace c.psiMax 0 c.psiCount, ∃ y, imTMaxRow c.mp nomU nomOmega x = some y := by
    intro x hx
    obtain ⟨k, hk, rfl⟩ := List.mem_map.mp hx
    have hk : (k : ℝ) ≤ c.psiCount - 1 := by
      have := List.mem_range.mp hk
      have : ((k + 1 : ℕ) : ℝ) ≤ c.psiCount := by exact_mod_cast this
      push_cast at this
      linarith
    have hn1 : (0 : ℝ) < c.psiCount - 1 := by
      have : (2 : ℝ) ≤ c.psiCount := by exact_mod_cast h.count.2
      linarith
    have hp := h.psiMax
    have e1 : c.psiMax + k * ((0 - c.psiMax) / (c.psiCount - 1)) = c.psiMax * (1 - k / (c.psiCount - 1)) := by ring
    have h1 : (k : ℝ) / (c.psiCount - 1) ≤ 1 := (div_le_one hn1).mpr hk
    have h0 : 0 ≤ (k : ℝ) / (c.psiCount - 1) := by positivity
    refine ⟨_, if_pos (sub_nonneg.mpr (le_trans ?_ hu))⟩
    rw [e1, mul_div_right_comm, mul_pow]
    have : (1 - (k : ℝ) / (c.psiCount - 1)) ^ 2 ≤ 1 := by
      rw [sq_le_one_iff_abs_le_one, abs_le]
      constructor <;> linarith
    nlinarith [sq_nonneg (c.psiMax / c.mp.lm)]
  obtain ⟨t', rfl⟩ : ∃ t', t = some t' := by
    have hm := at?_mem _ _ _ h2
    rw [ht] at hm
    simp only [imTMax, List.mem_append, List.mem_map, List.mem_reverse] at hm
    rcases hm with ⟨x, hx, rfl⟩ | ⟨y, ⟨x, hx, rfl⟩, rfl⟩
    · exact hrow x hx
    · obtain ⟨y, hy⟩ := hrow x hx
      exact ⟨-y, by rw [hy]; rfl⟩
  rw [e]
  dsimp only [Option.bind_some]
  obtain ⟨isd, hisd⟩ : ∃ x, x = clip (st.1.control psiAbs (min opt (c.modulation st.2 s).2)).2 (-(9 / 10 * c.nomD)) (9 / 10 * c.nomD) :=
    ⟨_, rfl⟩
  have e3 : |isd| ≤ 9 / 10 * c.nomD := by rw [hisd]; exact clip_abs (by linarith)
  obtain ⟨q, hq⟩ := iSq_number c (clip torque (-|t'|) |t'|) psiAbs isd (by
    rw [← sq_abs isd]
    exact pow_le_pow_left₀ (abs_nonneg _) (e3.trans hdq) 2)
  rw [← hisd, hq]
  exact ⟨_, _, _, rfl⟩

/-- C130 is violated by motors whose largest flux needs more than the nominal voltage at the nominal speed: at a torque with this flux, and
at speeds at which the flux is allowed, the answer is `nan`. -/
theorem c130_im_number_violated (c : ImTorque) (h : ImTorque.Tabled c) (nomU nomOmega : ℝ)
    (ht : c.tMaxPsi = imTMax c.mp nomU nomOmega c.psiMax c.psiCount) (h3 : 3 ≤ c.psiCount)
    (hu : nomU ^ 2 / (nomOmega ^ 2 * c.mp.ls ^ 2) < (c.psiMax * ((c.psiCount - 2) / (c.psiCount - 1)) / c.mp.lm) ^ 2)
    (psiAbs : ℝ) (st : Cont ℝ × ℝ) (s : ℕ → ℝ) (torque : ℝ)
    (hopt : at? c.psiOpt (idxPsiOpt c.tMax c.tCount torque) = .ok c.psiMax) (hm : c.psiMax ≤ (c.modulation st.2 s).2) :
    ∃ d psi, (c.control psiAbs st s torque).2 = .ok (none, d, psi) := by
  obtain ⟨opt, t, h1, h2, e⟩ := im_control_eq c h psiAbs st s torque
  rw [hopt] at h1
  obtain rfl := Except.ok.inj h1
  rw [min_eq_left hm] at h2
  have hn1 : (0 : ℝ) < c.psiCount - 1 := by
    have : (2 : ℝ) ≤ c.psiCount := by exact_mod_cast h.count.2
    linarith
  have hi : idxTMax c.psiMax c.psiCount c.psiMax = (c.psiCount - 1 : ℕ) := by
    rw [← idxTMax_eq c.psiMax h.psiMax c.psiCount (c.psiCount - 1) (by omega) h.count.2]
    congr 1
    rw [Nat.cast_sub (by omega), Nat.cast_one]
    field_simp
  have hi2 : ((c.psiCount : ℤ) - (c.psiCount - 1 : ℕ)).toNat = 1 := by omega
  have hrow : imTMaxRow c.mp nomU nomOmega (c.psiMax + (1 : ℕ) * ((0 - c.psiMax) / (c.psiCount - 1))) = none := by
    rw [imTMaxRow, if_neg]
    rw [not_le, sub_neg]
    have e1 : c.psiMax + (1 : ℕ) * ((0 - c.psiMax) / (c.psiCount - 1)) = c.psiMax * ((c.psiCount - 2) / (c.psiCount - 1)) := by
      rw [Nat.cast_one]
      field_simp
      ring
    rw [e1]
    exact hu
  have ht' : t = none := by
    rw [hi, at?, hi2, ht, imTMax] at h2
    rw [List.getElem?_append_left (by rw [List.length_map, linspace_length]; omega), List.getElem?_map, linspace, List.getElem?_map,
      List.getElem?_range (by omega)] at h2
    simp only [Option.map_some] at h2
    rw [hrow] at h2
    exact (Except.ok.inj h2).symm
  rw [e, ht']
  exact ⟨_, _, rfl⟩

/-- the quadrature current is a part of the one for the whole torque -/
theorem iSq_part (c : ImTorque) (hq : 0 ≤ c.nomQ) (torque psiAbs isd q : ℝ) (h : c.iSq torque psiAbs isd = some q) :
    ∃ r, 0 ≤ r ∧ r ≤ 1 ∧ q = r * (torque / max psiAbs (1 / 1000) * 2 / 3 / c.mp.p * c.mp.lr / c.mp.lm) ∧
      (q ^ 2 + isd ^ 2 < c.nomQ ^ 2 → r = 1 ∨ q = torque / max psiAbs (1 / 1000) * 2 / 3 / c.mp.p * c.mp.lr / c.mp.lm) := by
  simp only [ImTorque.iSq] at h
  generalize torque / max psiAbs (1 / 1000) * 2 / 3 / c.mp.p * c.mp.lr / c.mp.lm = y at h ⊢
  obtain ⟨r, h1, h2, h3⟩ := part_clip y c.nomQ hq
  have hx : |clip y (-c.nomQ) c.nomQ| ≤ c.nomQ := clip_abs hq
  split_ifs at h with h4 h5
  · obtain rfl := Option.some.inj h
    generalize hX : clip y (-c.nomQ) c.nomQ = x at *
    have h6 : c.nomQ ^ 2 < x ^ 2 + isd ^ 2 := by
      rw [← Real.sqrt_lt_sqrt_iff (by positivity), Real.sqrt_sq hq]
      exact h4
    have hx0 : x ≠ 0 := by
      rintro rfl
      nlinarith
    obtain ⟨r', g1, g2, g3⟩ := part_of (sign x * √(c.nomQ ^ 2 - isd ^ 2)) x (by
      have : |sign x| = 1 := by
        rcases lt_or_gt_of_ne hx0 with h | h
        · rw [sign_neg h]; norm_num
        · rw [sign_pos h]; norm_num
      rw [abs_mul, this, one_mul, abs_of_nonneg (Real.sqrt_nonneg _), Real.sqrt_le_left (abs_nonneg _), sq_abs]
      linarith) (by
      have := sign_mul_abs x
      have h7 : 0 ≤ sign x * x := by
        rcases lt_or_gt_of_ne hx0 with h | h
        · rw [sign_neg h]; linarith
        · rw [sign_pos h]; linarith
      have := Real.sqrt_nonneg (c.nomQ ^ 2 - isd ^ 2)
      nlinarith)
    refine ⟨r' * r, mul_nonneg g1 h1, mul_le_one₀ g2 h1 h2, by rw [g3, h3]; ring, fun hlt => ?_⟩
    exfalso
    have hs : sign x ^ 2 = 1 := by
      rcases lt_or_gt_of_ne hx0 with h | h
      · rw [sign_neg h]; norm_num
      · rw [sign_pos h]; norm_num
    rw [mul_pow, hs, Real.sq_sqrt h5] at hlt
    linarith
  · obtain rfl := Option.some.inj h
    refine ⟨r, h1, h2, h3, fun hlt => Or.inr ?_⟩
    have h6 : |clip y (-c.nomQ) c.nomQ| < c.nomQ := by
      rw [← sq_lt_sq₀ (abs_nonneg _) hq, sq_abs]
      nlinarith [sq_nonneg isd]
    rw [clip] at h6 ⊢
    obtain ⟨h7, h8⟩ := abs_lt.mp h6
    rcases min_choice (max y (-c.nomQ)) c.nomQ with e | e
    · rw [e] at h7 h8 ⊢
      rcases max_choice y (-c.nomQ) with e | e
      · exact e
      · rw [e] at h7; exact absurd h7 (lt_irrefl _)
    · rw [e] at h8; exact absurd h8 (lt_irrefl _)

/-- C130.  With the answered currents the induction motor produces a part of the wanted torque, never more and never one in the other
direction.  It is the whole torque if the flux is at least 0.001 Vs, the torque not larger than the one of the table and the currents are
together smaller than the nominal current. -/
theorem c130_im_torque (c : ImTorque) (h : ImTorque.Tabled c) (hp : 0 < c.mp.p) (hm : 0 < c.mp.lm) (hr : 0 < c.mp.lr)
    (hq : 0 ≤ c.nomQ) (hl : c.limD ≠ 0) (hl' : c.limQ ≠ 0) (psiAbs : ℝ) (hpsi : 0 ≤ psiAbs) (st : Cont ℝ × ℝ) (s : ℕ → ℝ)
    (torque q d psi eps : ℝ) (ha : (c.control psiAbs st s torque).2 = .ok (some q, d, psi)) :
    (∃ r, 0 ≤ r ∧ r ≤ 1 ∧ imTorque c.mp ![d * c.limD, q * c.limQ, psiAbs, 0, eps] = r * torque) ∧
      (1 / 1000 ≤ psiAbs → (∃ t, at? c.tMaxPsi (c.psiCount - idxTMax c.psiMax c.psiCount psi) = .ok (some t) ∧ |torque| ≤ |t|) →
        (q * c.limQ) ^ 2 + (d * c.limD) ^ 2 < c.nomQ ^ 2 →
        imTorque c.mp ![d * c.limD, q * c.limQ, psiAbs, 0, eps] = torque) := by
  obtain ⟨opt, t, -, htab, e⟩ := im_control_eq c h psiAbs st s torque
  rw [e] at ha
  dsimp only at ha
  obtain ⟨h1, h2⟩ := Prod.mk.inj (Except.ok.inj ha)
  obtain ⟨h2, hw⟩ := Prod.mk.inj h2
  rw [hw] at htab
  obtain ⟨isd, hisd⟩ : ∃ x, x = clip (st.1.control psiAbs (min opt (c.modulation st.2 s).2)).2 (-(9 / 10 * c.nomD)) (9 / 10 * c.nomD) :=
    ⟨_, rfl⟩
  rw [← hisd] at h1 h2
  have e2 : d * c.limD = isd := by rw [← h2]; field_simp
  obtain ⟨i, hi, e1⟩ := Option.map_eq_some_iff.mp h1
  obtain ⟨t', ht', hi⟩ := Option.bind_eq_some_iff.mp hi
  have e1 : q * c.limQ = i := by rw [← e1]; field_simp
  rw [e1, e2]
  have hT : ∀ y, imTorque c.mp ![isd, y, psiAbs, 0, eps] = 3 / 2 * c.mp.p * c.mp.lm / c.mp.lr * psiAbs * y := by
    intro y
    simp only [imTorque]
    simp [ImParams.lr]
    ring
  obtain ⟨r, g1, g2, g3, g4⟩ := iSq_part c hq _ _ _ _ hi
  have hk0 : 0 < max psiAbs (1 / 1000) := lt_of_lt_of_le (by norm_num) (le_max_right _ _)
  constructor
  · obtain ⟨r', k1, k2, k3⟩ := part_clip torque |t'| (abs_nonneg _)
    refine ⟨psiAbs / max psiAbs (1 / 1000) * r * r', by positivity, ?_, ?_⟩
    · have : psiAbs / max psiAbs (1 / 1000) ≤ 1 := (div_le_one hk0).mpr (le_max_left _ _)
      exact mul_le_one₀ (mul_le_one₀ this g1 g2) k1 k2
    · rw [hT, g3, k3]
      generalize max psiAbs (1 / 1000) = k at hk0
      field_simp
  · rintro hpsi' ⟨t'', h3, h4⟩ hlt
    rw [htab, ht'] at h3
    obtain rfl := Option.some.inj (Except.ok.inj h3)
    have hc : clip torque (-|t'|) |t'| = torque := by
      obtain ⟨a, b⟩ := abs_le.mp h4
      rw [clip, max_eq_left a, min_eq_left b]
    have hi' : i = torque / max psiAbs (1 / 1000) * 2 / 3 / c.mp.p * c.mp.lr / c.mp.lm := by
      rcases g4 hlt with g | g
      · rw [g3, g, hc, one_mul]
      · rw [g, hc]
    rw [hT, hi', max_eq_left hpsi']
    have : 0 < psiAbs := lt_of_lt_of_le (by norm_num) hpsi'
    field_simp

/-! ### Series of calls -/

/-- a call of the conversion of an induction motor, or a reset -/
inductive ImCall
  | control (psiAbs : ℝ) (s : ℕ → ℝ) (torque : ℝ)
  | reset

/-- the state after a series of calls -/
noncomputable def imConvAfter (c : ImTorque) : Cont ℝ × ℝ → List ImCall → Cont ℝ × ℝ
  | st, [] => st
  | st, .control psiAbs s torque :: l => imConvAfter c (c.control psiAbs st s torque).1 l
  | st, .reset :: l => imConvAfter c (imTorqueReset st) l

/-- a new flux controller, with some value of the integral -/
theorem im_flux_form (c : ImTorque) (p tau : ℝ) (calls : List ImCall) (st : Cont ℝ × ℝ) (h : st.1.reset = (imTorqueNew p tau).1) :
    (imConvAfter c st calls).1.reset = (imTorqueNew p tau).1 := by
  induction calls generalizing st with
  | nil => exact h
  | cons a l ih =>
    have hd : st.1.d = none := by
      have := congrArg Cont.d h
      simp only [Cont.reset, imTorqueNew, Cont.new] at this
      split at this <;> simp_all
    obtain ⟨⟨gp, gi, d, gt, n, o⟩, x⟩ := st
    simp only at hd
    subst hd
    cases a with
    | reset => exact ih _ h
    | control psiAbs s torque =>
      refine ih _ ?_
      simp only [ImTorque.control]
      split
      · exact h
      · split
        · exact h
        · dsimp only
          split_ifs <;> exact h

/-- C130, the part of the reset that is done: after any calls a reset makes the flux controller new. -/
theorem c130_im_reset_partial (c : ImTorque) (p tau : ℝ) (calls : List ImCall) :
    (imTorqueReset (imConvAfter c (imTorqueNew p tau) calls)).1 = (imTorqueNew p tau).1 :=
  im_flux_form c p tau calls _ rfl

/-- C130 is violated: a reset leaves the integrated modulation.  A motor without voltages that turns: after one call and a reset the same
call is answered differently than the first time, whenever the flux is limited by the speed and the modulation controller not at its limit. -/
theorem c130_im_reset_violated (c : ImTorque) (h : ImTorque.Tabled c) (p tau psiAbs : ℝ) (s : ℕ → ℝ) (torque opt : ℝ)
    (hs : s c.uSd = 0 ∧ s c.uSq = 0) (ha : 0 ≤ c.mod.aMax) (hlow : c.mod.psiLow ≤ 0)
    (hopt : at? c.psiOpt (idxPsiOpt c.tMax c.tCount torque) = .ok opt)
    (hg : 0 < c.mod.iGain * (2 * max (|s c.omega| * c.limOmega) (1 / 10000) * c.mod.p / c.mod.uDc) * (c.mod.k * c.mod.aMax * c.mod.tau))
    (hhigh : 2 * (c.mod.iGain * (2 * max (|s c.omega| * c.limOmega) (1 / 10000) * c.mod.p / c.mod.uDc) * (c.mod.k * c.mod.aMax * c.mod.tau))
      ≤ c.mod.psiHigh)
    (hpos : 0 ≤ c.mod.uDc / (√3 * max (|s c.omega| * c.limOmega) (1 / 10000) * c.mod.p))
    (hlim : c.mod.uDc / (√3 * max (|s c.omega| * c.limOmega) (1 / 10000) * c.mod.p)
      + 2 * (c.mod.iGain * (2 * max (|s c.omega| * c.limOmega) (1 / 10000) * c.mod.p / c.mod.uDc) * (c.mod.k * c.mod.aMax * c.mod.tau)) ≤ opt) :
    (c.control psiAbs (imTorqueReset (c.control psiAbs (imTorqueNew p tau) s torque).1) s torque).2
      ≠ (c.control psiAbs (imTorqueNew p tau) s torque).2 := by
  obtain ⟨w, hw⟩ : ∃ w, w = max (|s c.omega| * c.limOmega) (1 / 10000) := ⟨_, rfl⟩
  obtain ⟨g, hgd⟩ : ∃ g, g = c.mod.iGain * (2 * w * c.mod.p / c.mod.uDc) := ⟨_, rfl⟩
  obtain ⟨b, hb⟩ : ∃ b, b = c.mod.uDc / (√3 * w * c.mod.p) := ⟨_, rfl⟩
  obtain ⟨k, hk⟩ : ∃ k, k = c.mod.k * c.mod.aMax * c.mod.tau := ⟨_, rfl⟩
  rw [← hw, ← hgd, ← hk] at hg hhigh
  rw [← hw, ← hb] at hpos
  rw [← hw, ← hgd, ← hk, ← hb] at hlim
  have hmod : modulationOf c.mod (s c.uSd * c.limUd) (s c.uSq * c.limUq) = 0 := by
    rw [hs.1, hs.2, modulationOf]
    simp
  have key : ∀ x, 0 ≤ g * (k + x) → g * (k + x) ≤ c.mod.psiHigh → c.modulation x s = (x + k, b + g * (k + x)) := by
    intro x h1 h2
    have hin : c.mod.psiLow ≤ g * (k + x) ∧ g * (k + x) ≤ c.mod.psiHigh := ⟨hlow.trans h1, h2⟩
    simp only [ImTorque.modulation, hmod, sub_zero, ← hw, ← hgd, ← hk, ← hb]
    have h3 : ¬ 101 / 100 * c.mod.aMax < 0 := not_lt.mpr (by positivity)
    simp only [if_neg h3, if_pos hin]
    rw [max_eq_left (by linarith)]
  have m0 := key 0 (by rw [add_zero]; exact hg.le) (by rw [add_zero]; linarith)
  have m1 := key (0 + k) (by rw [zero_add, ← two_mul]; linarith) (by rw [zero_add, ← two_mul]; linarith)
  obtain ⟨o1, t1, e1, -, c1⟩ := im_control_eq c h psiAbs (imTorqueNew p tau) s torque
  rw [hopt] at e1
  obtain rfl := Except.ok.inj e1
  have hst : (imTorqueReset (c.control psiAbs (imTorqueNew p tau) s torque).1).2 = 0 + k := by
    rw [c1]
    simp only [imTorqueReset, imTorqueNew, m0]
  obtain ⟨o2, t2, e2, -, c2⟩ := im_control_eq c h psiAbs (imTorqueReset (c.control psiAbs (imTorqueNew p tau) s torque).1) s torque
  rw [hopt] at e2
  obtain rfl := Except.ok.inj e2
  intro heq
  rw [c2, c1] at heq
  have h3 := (Prod.mk.inj (Prod.mk.inj (Except.ok.inj heq)).2).2
  rw [← c1, hst, m1] at h3
  simp only [imTorqueNew, m0] at h3
  rw [min_eq_right (by rw [zero_add]; linarith), min_eq_right (by rw [add_zero]; linarith)] at h3
  rw [zero_add, add_zero] at h3
  linarith

/-- C126 for the conversion of an induction motor: the integrated modulation is bounded by a number that depends on the parameters only. -/
theorem c126_im_modulation (c : ImTorque) (hp : 0 < c.mod.p) (hu : 0 < c.mod.uDc) (hg : 0 < c.mod.iGain) (calls : List ImCall) (p tau : ℝ) :
    |(imConvAfter c (imTorqueNew p tau) calls).2| ≤
      max ((|c.mod.psiLow| + |c.mod.psiHigh|) / (c.mod.iGain * (2 * (1 / 10000) * c.mod.p / c.mod.uDc))) |c.mod.resetValue| := by
  obtain ⟨B, hB⟩ : ∃ B, B = max ((|c.mod.psiLow| + |c.mod.psiHigh|) / (c.mod.iGain * (2 * (1 / 10000) * c.mod.p / c.mod.uDc)))
    |c.mod.resetValue| := ⟨_, rfl⟩
  rw [← hB]
  have hB0 : 0 ≤ B := by rw [hB]; positivity
  have step : ∀ x s, |x| ≤ B → |(c.modulation x s).1| ≤ B := by
    intro x s hx
    simp only [ImTorque.modulation]
    generalize (c.mod.k * c.mod.aMax - modulationOf c.mod (s c.uSd * c.limUd) (s c.uSq * c.limUq)) * c.mod.tau = e
    have hx' : |if 101 / 100 * c.mod.aMax < modulationOf c.mod (s c.uSd * c.limUd) (s c.uSq * c.limUq) then c.mod.resetValue else x| ≤ B := by
      split_ifs
      · rw [hB]; exact le_max_right _ _
      · exact hx
    generalize (if 101 / 100 * c.mod.aMax < modulationOf c.mod (s c.uSd * c.limUd) (s c.uSq * c.limUq) then c.mod.resetValue else x) = y at hx' ⊢
    split_ifs with hin
    · have hw : (1 : ℝ) / 10000 ≤ max (|s c.omega| * c.limOmega) (1 / 10000) := le_max_right _ _
      generalize max (|s c.omega| * c.limOmega) (1 / 10000) = w at hin hw
      have g0 : 0 < c.mod.iGain * (2 * (1 / 10000) * c.mod.p / c.mod.uDc) := by positivity
      have g1 : c.mod.iGain * (2 * (1 / 10000) * c.mod.p / c.mod.uDc) ≤ c.mod.iGain * (2 * w * c.mod.p / c.mod.uDc) := by gcongr
      have h1 : |c.mod.iGain * (2 * w * c.mod.p / c.mod.uDc) * (e + y)| ≤ |c.mod.psiLow| + |c.mod.psiHigh| := by
        have n1 := neg_abs_le c.mod.psiLow
        have n2 := le_abs_self c.mod.psiHigh
        have n3 := abs_nonneg c.mod.psiLow
        have n4 := abs_nonneg c.mod.psiHigh
        rw [abs_le]
        constructor <;> linarith [hin.1, hin.2]
      rw [abs_mul, abs_of_pos (g0.trans_le g1)] at h1
      rw [add_comm y e, hB]
      refine le_trans ?_ (le_max_left _ _)
      rw [le_div_iff₀ g0]
      calc |e + y| * _ ≤ |e + y| * _ := mul_le_mul_of_nonneg_left g1 (abs_nonneg _)
        _ ≤ _ := by rw [mul_comm]; exact h1
    · exact hx'
  have main : ∀ calls : List ImCall, ∀ st : Cont ℝ × ℝ, |st.2| ≤ B → |(imConvAfter c st calls).2| ≤ B := by
    intro calls
    induction calls with
    | nil => exact fun st h => h
    | cons a l ih =>
      intro st h
      cases a with
      | reset => exact ih _ h
      | control psiAbs s torque =>
        refine ih _ ?_
        simp only [ImTorque.control]
        split
        · exact h
        · split
          · exact step _ _ h
          · exact step _ _ h
  exact main calls _ (by simpa [imTorqueNew] using hB0)

/-- a flux that may be asked for: entries of the table are between 0 and the largest one -/
theorem c126_im_flux (c : ImTorque) (g : Gains ℝ) (E : ℝ) (hE : 0 ≤ E) (hopt : ∀ x ∈ c.psiOpt, 0 ≤ x ∧ x ≤ E) :
    ∃ B, ∀ (calls : List ImCall) (x : ℝ), (∀ a ∈ calls, ∀ psiAbs s torque, a = .control psiAbs s torque → |psiAbs| ≤ E) →
      |iPart (imConvAfter c (g.new, x) calls).1| ≤ B := by
  have hM : 0 ≤ 9 / 10 * |c.nomD| := by positivity
  refine ⟨partBound g (9 / 10 * |c.nomD|) 0 E, ?_⟩
  have main : ∀ calls : List ImCall, (∀ a ∈ calls, ∀ psiAbs s torque, a = .control psiAbs s torque → |psiAbs| ≤ E) →
      ∀ st : Cont ℝ × ℝ, Kept g (9 / 10 * |c.nomD|) 0 E st.1 → Kept g (9 / 10 * |c.nomD|) 0 E (imConvAfter c st calls).1 := by
    intro calls
    induction calls with
    | nil => exact fun _ st h => h
    | cons a l ih =>
      intro hb st h
      have hl : ∀ a ∈ l, ∀ psiAbs s torque, a = .control psiAbs s torque → |psiAbs| ≤ E :=
        fun b hb' => hb b (List.mem_cons_of_mem _ hb')
      cases a with
      | reset => exact ih hl _ (kept_reset hM le_rfl hE h)
      | control psiAbs s torque =>
        have hpsi := hb _ List.mem_cons_self psiAbs s torque rfl
        refine ih hl _ ?_
        simp only [ImTorque.control]
        split
        · exact h
        · rename_i opt h1
          split
          · exact h
          · obtain ⟨o1, o2⟩ := hopt _ (at?_mem _ _ _ h1)
            have hmod : 0 ≤ (c.modulation st.2 s).2 := by
              simp only [ImTorque.modulation]
              exact le_max_right _ _
            have hwant : |min opt (c.modulation st.2 s).2| ≤ E := by
              rw [abs_of_nonneg (le_min o1 hmod)]
              exact (min_le_left _ _).trans o2
            generalize min opt (c.modulation st.2 s).2 = want at hwant
            have he := abs_diff hwant hpsi
            dsimp only
            split_ifs with hy
            · refine kept_integrate (f := 0) h he he (by simp) (add_zero _) ?_
              rw [hy, clip]
              have n1 := le_abs_self c.nomD
              have n2 := neg_abs_le c.nomD
              rw [abs_le]
              constructor
              · refine le_min (le_trans ?_ (le_max_right _ _)) ?_ <;> linarith
              · exact (min_le_right _ _).trans (by linarith)
            · exact kept_control h he
  intro calls x hb
  exact (main calls hb (g.new, x) (kept_new g hM le_rfl hE)).2.1

/-- the entries of the table of fluxes are in the range of the direct current -/
theorem imPsiOpt_range (mp : ImParams ℝ) (limD tMax : ℝ) (n : ℕ) (hm : 0 ≤ mp.lm) (hl : 0 ≤ limD) (x : ℝ) (hx : x ∈ imPsiOpt mp limD tMax n) :
    0 ≤ x ∧ x ≤ mp.lm * limD := by
  obtain ⟨t, -, rfl⟩ := List.mem_map.mp hx
  have h0 : (0 : ℝ) ≤ 0 ∧ (0 : ℝ) ≤ mp.lm * limD := ⟨le_rfl, by positivity⟩
  unfold psiOptRow
  split_ifs
  · simpa using h0
  · split
    · simpa using h0
    · rename_i k y hk
      cases hg : (linspace 0 limD 500)[k]? with
      | none => simpa using h0
      | some isd =>
        obtain ⟨j, hj, rfl⟩ := List.mem_map.mp (List.mem_of_getElem? hg)
        have hj : (j : ℝ) ≤ 499 := by
          have := List.mem_range.mp hj
          exact_mod_cast (by omega : j ≤ 499)
        have e : (0 : ℝ) + j * ((limD - 0) / ((500 : ℕ) - 1)) = limD * (j / 499) := by push_cast; ring
        have h1 : (j : ℝ) / 499 ≤ 1 := (div_le_one (by norm_num)).mpr hj
        simp only [Option.map_some, Option.getD_some]
        rw [e]
        exact ⟨by positivity, mul_le_mul_of_nonneg_left (by nlinarith) hm⟩

/-- the largest flux is positive if, at the largest torque, the second sampled current has smaller losses than the first one -/
theorem imPsiMax_pos (mp : ImParams ℝ) (limD tMax : ℝ) (hm : 0 < mp.lm) (hl : 0 < limD) (ht : 0 < tMax)
    (hloss : scimLosses mp (2 * (limD / 499)) (scimIsq mp tMax (2 * (limD / 499)))
      < scimLosses mp (1 * (limD / 499)) (scimIsq mp tMax (1 * (limD / 499)))) :
    0 < (imPsiOpt mp limD tMax 1001).foldl max 0 := by
  have hmax : ∀ (l : List ℝ) (a : ℝ), a ≤ l.foldl max a ∧ ∀ x ∈ l, x ≤ l.foldl max a := by
    intro l
    induction l with
    | nil => exact fun a => ⟨le_rfl, by simp⟩
    | cons b l ih =>
      intro a
      obtain ⟨h1, h2⟩ := ih (max a b)
      refine ⟨(le_max_left _ _).trans h1, fun x hx => ?_⟩
      rcases List.mem_cons.mp hx with rfl | hx
      · exact (le_max_right _ _).trans h1
      · exact h2 x hx
  obtain ⟨gr, hgr⟩ : ∃ gr, gr = linspace 0 limD 500 := ⟨_, rfl⟩
  have hget : ∀ k : ℕ, k < 500 → gr[k]? = some (k * (limD / 499)) := by
    intro k hk
    rw [hgr, linspace, List.getElem?_map, List.getElem?_range hk]
    simp only [Option.map_some, Option.some.injEq]
    push_cast
    ring
  have htail : ∀ k : ℕ, gr.tail[k]? = gr[k + 1]? := fun k => by rw [List.getElem?_tail]
  have hne : gr.tail ≠ [] := by
    intro h
    have := htail 0
    rw [h, hget 1 (by norm_num)] at this
    exact absurd this (by simp)
  obtain ⟨⟨k, x⟩, hv⟩ := (firstMin_spec (fun x => scimLosses mp x (scimIsq mp tMax x)) gr.tail).2 hne
  obtain ⟨h1, h2⟩ := (firstMin_spec (fun x => scimLosses mp x (scimIsq mp tMax x)) gr.tail).1 k x hv
  have hk : k + 1 < 500 := by
    by_contra hn
    rw [htail, List.getElem?_eq_none (by rw [hgr, linspace_length]; omega)] at h1
    exact absurd h1 (by simp)
  have hk0 : k ≠ 0 := by
    rintro rfl
    rw [htail, hget 1 (by norm_num)] at h1
    have h3 := h2 (2 * (limD / 499)) (List.mem_of_getElem? (by rw [htail, hget 2 (by norm_num)]; norm_num : gr.tail[1]? = _))
    rw [← Option.some.inj h1] at h3
    push_cast at h3
    exact absurd hloss (not_lt.mpr h3)
  have hrow : psiOptRow mp gr tMax = some ⟨tMax, k * (limD / 499), scimIsq mp tMax x, mp.lm * (k * (limD / 499))⟩ := by
    rw [psiOptRow, if_neg ht.ne', hv]
    simp only [hget k (by omega), Option.map_some]
  have hmem : mp.lm * (k * (limD / 499)) ∈ imPsiOpt mp limD tMax 1001 := by
    refine List.mem_map.mpr ⟨tMax, List.mem_map.mpr ⟨1000, by simp, by push_cast; ring⟩, ?_⟩
    rw [← hgr, hrow]
    rfl
  refine lt_of_lt_of_le ?_ ((hmax _ 0).2 _ hmem)
  have : (0 : ℝ) < k := by exact_mod_cast Nat.pos_of_ne_zero hk0
  positivity

/-- The default squirrel cage motor (`l_m` 143.75 mH, `l_sigs`, `l_sigr` 5.87 mH, `r_s` 2.9338 Ω, `r_r` 1.355 Ω, 2 pole pairs) with the
limits 5.5 A and 10 Nm: the tables have the right sizes. -/
theorem scim_tabled : ImTorque.Tabled (imTables ⟨2, 14375 / 100000, 587 / 100000, 587 / 100000, 29338 / 10000, 1355 / 1000⟩ 3 3 (55 / 10) (55 / 10)
    10 280 314 280 (1 / 10000) 0 1 2 400 280 280) :=
  imTables_tabled _ _ _ _ _ _ _ _ _ _ _ _ _ _ _ _ (by norm_num) (imPsiMax_pos _ _ _ (by norm_num) (by norm_num) (by norm_num)
    (by norm_num [scimLosses, scimIsq, ImParams.lr]))

/-- the same motor with the nominal voltage 280 V at 314 rad/s: all answers are numbers -/
example (psiAbs : ℝ) (st : Cont ℝ × ℝ) (s : ℕ → ℝ) (torque : ℝ) :
    ∃ q d psi, (ImTorque.control (imTables ⟨2, 14375 / 100000, 587 / 100000, 587 / 100000, 29338 / 10000, 1355 / 1000⟩ 3 3 (55 / 10) (55 / 10)
      10 280 314 280 (1 / 10000) 0 1 2 400 280 280) psiAbs st s torque).2 = .ok (some q, d, psi) := by
  have hle : ∀ (l : List ℝ) (a b : ℝ), a ≤ b → (∀ x ∈ l, x ≤ b) → l.foldl max a ≤ b := by
    intro l
    induction l with
    | nil => exact fun a b h _ => h
    | cons x l ih => exact fun a b h hx => ih _ b (max_le h (hx x List.mem_cons_self)) fun y hy => hx y (List.mem_cons_of_mem _ hy)
  have h1 := hle (imPsiOpt ⟨2, 14375 / 100000, 587 / 100000, 587 / 100000, 29338 / 10000, 1355 / 1000⟩ (55 / 10) 10 1001) 0
    (14375 / 100000 * (55 / 10)) (by norm_num) fun x hx => (imPsiOpt_range _ _ _ _ (by norm_num) (by norm_num) x hx).2
  have h0 := scim_tabled.psiMax
  refine c130_im_number_partial _ scim_tabled 280 314 (by simp only [imTables]) (by norm_num [imTables]) (by norm_num [imTables]) ?_ psiAbs st s torque
  simp only [imTables, ImParams.ls] at h0 ⊢
  generalize (imPsiOpt _ _ _ _).foldl max 0 = x at h0 h1
  rw [div_pow, div_le_iff₀ (by norm_num)]
  norm_num at h1 ⊢
  nlinarith

/-- A small conversion for the other statements: optimal fluxes 1, 0, 1, tables of 3 fluxes. -/
noncomputable def smallConv (nomU : ℝ) : ImTorque :=
  { mp := ⟨1, 1, 1, 1, 1, 1⟩
    mod := { p := 1, tau := 1 / 10, uDc := 1, aMax := 1, k := 8 / 10, iGain := 1, psiLow := -1, psiHigh := 1, resetValue := -1 / 2 }
    psiOpt := [1, 0, 1], tMaxPsi := imTMax ⟨1, 1, 1, 1, 1, 1⟩ nomU 1 1 3, psiMax := 1, tMax := 1, tCount := 3, psiCount := 3
    nomD := 1, nomQ := 1, limD := 1, limQ := 1, omega := 0, uSd := 1, uSq := 2, limOmega := 1, limUd := 1, limUq := 1 }

theorem smallConv_tabled (nomU : ℝ) : ImTorque.Tabled (smallConv nomU) where
  tMax := by norm_num [smallConv]
  psiMax := by norm_num [smallConv]
  count := by norm_num [smallConv]
  psiOpt := rfl
  tMaxPsi := by simp [smallConv, imTMax, linspace]

theorem smallConv_top (nomU : ℝ) : at? (smallConv nomU).psiOpt (idxPsiOpt (smallConv nomU).tMax (smallConv nomU).tCount 1) = .ok 1 := by
  have : idxPsiOpt (smallConv nomU).tMax (smallConv nomU).tCount 1 = 2 := by
    simp only [smallConv, idxPsiOpt, clip]
    have e : ((min (max 1 (-1)) 1 - -1 : ℝ) / (1 - -1) * ((3 : ℕ) - 1)) = ((2 : ℤ) : ℝ) := by norm_num
    rw [e, pyRound_int]
  rw [this]
  rfl

/-- without nominal voltage the answer is `nan` at standstill for the largest torque -/
example (psiAbs : ℝ) (f : Cont ℝ) : ∃ d psi, ((smallConv 0).control psiAbs (f, 0) (fun _ => 0) 1).2 = .ok (none, d, psi) := by
  refine c130_im_number_violated _ (smallConv_tabled 0) 0 1 rfl (by norm_num [smallConv]) (by norm_num [smallConv]) _ _ _ _ (smallConv_top 0) ?_
  have h3 : √3 ≤ 2 := by rw [Real.sqrt_le_left (by norm_num)]; norm_num
  have h0 : 0 < √3 := by positivity
  have hb : 1 ≤ 1 / (√3 * (1 / 10000) * 1) - 1 := by
    rw [le_sub_iff_add_le, le_div_iff₀ (by positivity)]
    linarith
  simp only [smallConv, ImTorque.modulation, modulationOf]
  norm_num at hb ⊢
  linarith

/-- one call at the speed 1, a reset, and the same call again: another answer -/
example (psiAbs : ℝ) :
    let c := smallConv 10
    let s : ℕ → ℝ := fun j => if j = 0 then 1 else 0
    (c.control psiAbs (imTorqueReset (c.control psiAbs (imTorqueNew 1 1) s 1).1) s 1).2 ≠ (c.control psiAbs (imTorqueNew 1 1) s 1).2 := by
  intro c s
  have h3 : (17 : ℝ) / 10 ≤ √3 := Real.le_sqrt_of_sq_le (by norm_num)
  have hw : max (|s c.omega| * c.limOmega) (1 / 10000) = 1 := by norm_num [s, c, smallConv]
  have hb : 1 / (√3 * 1 * 1) ≤ 10 / 17 := by
    rw [div_le_iff₀ (by positivity)]
    linarith
  refine c130_im_reset_violated c (smallConv_tabled 10) 1 1 psiAbs s 1 1 (by simp [s, c, smallConv]) (by norm_num [c, smallConv])
    (by norm_num [c, smallConv]) (smallConv_top 10) ?_ ?_ ?_ ?_
  all_goals rw [hw]; simp only [c, smallConv]
  · norm_num
  · norm_num
  · positivity
  · linarith

/-! ## Synchronous motors -/

/-- Sizes of the tables. -/
structure SyncTorque.Tabled (c : SyncTorque) : Prop where
  maxTorque : 0 < c.tab.maxTorque
  count : 2 ≤ c.tab.tCount
  mtpc : c.tab.mtpc.length = c.tab.tCount
  mtpf : c.tab.psiCount < c.tab.mtpf.length

theorem filterMap_length {α β : Type} (f : α → Option β) (l : List α) (h : ∀ a ∈ l, f a ≠ none) : (l.filterMap f).length = l.length := by
  induction l with
  | nil => rfl
  | cons a l ih =>
    have h1 := h a List.mem_cons_self
    cases ha : f a with
    | none => exact absurd ha h1
    | some b => simp [ha, ih fun x hx => h x (List.mem_cons_of_mem _ hx)]

/-- the tables of the constructor have these sizes: for motors with magnet, and for reluctance motors -/
theorem syncTables_tabled (mp : SyncParams ℝ) (nom limD limQ limT : ℝ) (hn : 0 < nom) (hd : 0 < mp.ld) (hT : 0 < limT)
    (hk : mp.psiP ≠ 0 ∨ mp.ld ≠ mp.lq) (c : SyncTorque) (hc : c.tab = syncTables mp nom nom limD limQ limT) : SyncTorque.Tabled c where
  maxTorque := by
    rw [hc]
    exact lt_of_lt_of_le hT (le_max_right _ _)
  count := by rw [hc, syncTables]; norm_num
  mtpc := by
    rw [hc]
    unfold syncTables
    dsimp only
    rw [filterMap_length, linspace_length]
    intro t _
    have hlen : (if mp.psiP = 0 then linspace (-(5 / 2 * limQ)) (5 / 2 * limQ) 500 else linspace (-(5 / 2 * limD)) 0 500).length = 500 := by
      split_ifs <;> exact linspace_length _ _ _
    generalize (if mp.psiP = 0 then linspace (-(5 / 2 * limQ)) (5 / 2 * limQ) 500 else linspace (-(5 / 2 * limD)) 0 500) = gr at hlen
    unfold mtpcRow
    split_ifs with h1 h2
    · exact absurd h2 (fun h => hk.elim (fun k => k h) (fun k => k h1))
    · simp
    · have hne : mtpcPairs mp gr t ≠ [] := by
        intro h
        have := congrArg List.length h
        unfold mtpcPairs at this
        split_ifs at this <;> rw [List.length_map, hlen] at this <;> exact absurd this (by norm_num)
      obtain ⟨⟨k, v⟩, hv⟩ := (firstMin_spec (fun v : ℝ × ℝ => v.1 ^ 2 + v.2 ^ 2) _).2 hne
      simp [hv]
  mtpf := by
    rw [hc]
    unfold syncTables mtpfTable
    dsimp only
    rw [List.length_append, List.length_reverse, List.length_map]
    by_cases h0 : mp.psiP = 0
    · have hP : 0 < mtpfFlux mp nom nom := by
        rw [mtpfFlux, h0, zero_add]
        exact Real.sqrt_pos.mpr (by positivity)
      rw [mtpfRows_reluctance mp h0 (by positivity) _ nom hn _ _ (by
        intro psi hpsi
        obtain ⟨k, -, rfl⟩ := List.mem_map.mp hpsi
        push_cast
        have : (0 : ℝ) ≤ (mtpfFlux mp nom nom - 0) / (250 - 1) := div_nonneg (by linarith) (by norm_num)
        positivity), List.length_map]
      have hf : (linspace 0 (mtpfFlux mp nom nom) 250).filter (fun psi => decide (2 * psi ^ 2 ≤ mtpfFlux mp nom nom ^ 2))
          = ((List.range 250).filter fun k => decide (k < keptRows 250)).map
            fun k : ℕ => 0 + (k : ℝ) * ((mtpfFlux mp nom nom - 0) / ((250 : ℕ) - 1)) := by
        rw [linspace, List.filter_map]
        congr 1
        refine List.filter_congr fun k _ => ?_
        simp only [Function.comp_apply, decide_eq_decide]
        rw [lt_keptRows]
        generalize mtpfFlux mp nom nom = P at hP
        push_cast
        have e : 2 * (0 + (k : ℝ) * ((P - 0) / (250 - 1))) ^ 2 = 2 * (k : ℝ) ^ 2 / 249 ^ 2 * P ^ 2 := by ring
        rw [e, mul_le_iff_le_one_left (by positivity), div_le_one (by positivity)]
        norm_num
        norm_cast
      have k1 := (lt_keptRows 250 176).mpr (by norm_num)
      have k2 := mt (lt_keptRows 250 177).mp (by norm_num)
      rw [hf, List.length_map, filter_range_lt _ _ (by omega), List.length_range]
      omega
    · have := congrArg List.length (mtpfRows_psi mp h0 (linspace (-nom) 0 500) nom hn (0, 0, 0) (by simpa using hn.le)
        (linspace 0 (mtpfFlux mp nom nom) 250))
      rw [List.length_map, linspace_length] at this
      rw [this]
      norm_num

theorem at?_ok {α : Type} (l : List α) (i : ℤ) (h : i.toNat < l.length) : ∃ a, at? l i = .ok a :=
  ⟨l[i.toNat], by rw [at?, List.getElem?_eq_getElem h]⟩

/-- C130.  For a torque not larger than `max_torque`, which is at least the limit of the torque, so for all references between -1 and 1, the
conversion of a synchronous motor answers; each answered current is at most the nominal one. -/
theorem c130_sync_answers_partial (c : SyncTorque) (h : SyncTorque.Tabled c) (hd : 0 ≤ c.nomD) (hq : 0 ≤ c.nomQ) (hl : c.limD ≠ 0) (hl' : c.limQ ≠ 0)
    (st : ModSt) (hst : st.integrated ≠ none) (s : ℕ → ℝ) (torque : ℝ) (ht : |torque| ≤ c.tab.maxTorque) :
    ∃ q d, (c.control st s torque).2 = .ok (q, d) ∧ |q * c.limQ| ≤ c.nomQ ∧ |d * c.limD| ≤ c.nomD := by
  obtain ⟨x, hx, -⟩ := c88_mtpc_partial c.tab.maxTorque h.maxTorque c.tab.tCount h.count torque ht
  obtain ⟨opt, h1⟩ := at?_same_length (l' := c.tab.mtpc) (by rw [linspace_length, h.mtpc]) hx
  obtain ⟨⟨psiMod, h2⟩, -⟩ := c83_modulation_partial c.mod st hst (s c.omega * c.limOmega) (s c.uSd * c.limUd) (s c.uSq * c.limUq)
  have hidx : (idxMtpf c.tab.psiMaxMtpf c.tab.psiCount (min opt.psi psiMod)).toNat < c.tab.mtpf.length := by
    have : idxMtpf c.tab.psiMaxMtpf c.tab.psiCount (min opt.psi psiMod) ≤ c.tab.psiCount := min_le_right _ _
    have := h.mtpf
    omega
  obtain ⟨f, h3⟩ := at?_ok _ _ hidx
  obtain ⟨x, y, hsel⟩ : ∃ x y, c.select psiMod torque = .ok (x, y) := by
    unfold SyncTorque.select
    cases c.find with
    | online root =>
      simp only [selectOnline, h1, h3]
      exact ⟨_, _, rfl⟩
    | table lut =>
      simp only [selectTable, h1, h3]
      exact ⟨_, _, rfl⟩
  refine ⟨clip y (-c.nomQ) c.nomQ / c.limQ, clip x (-c.nomD) c.nomD / c.limD, ?_, ?_, ?_⟩
  · simp only [SyncTorque.control, h1, SyncTorque.modulation, h2, hsel]
    rfl
  · rw [div_mul_cancel₀ _ hl']; exact clip_abs hq
  · rw [div_mul_cancel₀ _ hl]; exact clip_abs hd

/-- C130 is violated by larger torques: the call raises an IndexError. -/
theorem c130_sync_answers_violated (c : SyncTorque) (h : SyncTorque.Tabled c) (st : ModSt) (s : ℕ → ℝ) (torque : ℝ)
    (ht : c.tab.maxTorque * (1 + 2 / (c.tab.tCount - 1)) ≤ torque) : c.control st s torque = (st, .error .index) := by
  simp only [SyncTorque.control, c88_mtpc_violated c.tab.maxTorque h.maxTorque c.tab.tCount h.count torque ht c.tab.mtpc h.mtpc]

/-- C130.  The limits of the currents are the only change of the selected currents: if these are within the nominal values, the answers are the
currents of the selection, of which C87 states when they produce the wanted torque. -/
theorem c130_sync_torque_partial (c : SyncTorque) (hl : c.limD ≠ 0) (hl' : c.limQ ≠ 0) (st : ModSt) (s : ℕ → ℝ) (torque q d : ℝ)
    (hp : c.tab.mp.p ≠ 0) (hm : c.tab.mp.psiP ≠ 0 ∨ c.tab.mp.ld ≤ c.tab.mp.lq) (root : ℝ → ℝ → ℝ) (hf : c.find = .online root) (opt f : Row)
    (psiMod : ℝ) (h1 : at? c.tab.mtpc (idxMtpc c.tab.maxTorque c.tab.tCount torque) = .ok opt) (h2 : (c.modulation st s).2 = .ok psiMod)
    (h3 : at? c.tab.mtpf (idxMtpf c.tab.psiMaxMtpf c.tab.psiCount (min opt.psi psiMod)) = .ok f) (ht : |torque| ≤ |f.t|)
    (hr1 : root torque (min opt.psi psiMod) ≤ opt.iD) (hr2 : f.iD ≤ root torque (min opt.psi psiMod))
    (h0 : c.tab.mp.psiP + (c.tab.mp.ld - c.tab.mp.lq) * root torque (min opt.psi psiMod) ≠ 0)
    (ha : (c.control st s torque).2 = .ok (q, d)) (hq : |q * c.limQ| < c.nomQ) (hd : |d * c.limD| < c.nomD) :
    torqueOf c.tab.mp (d * c.limD) (q * c.limQ) = torque := by
  obtain ⟨x, y, e1, e2⟩ := c87_online_partial c.tab hp hm root psiMod torque opt f h1 h3 ht hr1 hr2 h0
  have inner : ∀ z a : ℝ, |clip z (-a) a| < a → clip z (-a) a = z := by
    intro z a hz
    rw [clip] at hz ⊢
    obtain ⟨h7, h8⟩ := abs_lt.mp hz
    rcases min_choice (max z (-a)) a with e | e
    · rw [e] at h7 h8 ⊢
      rcases max_choice z (-a) with e | e
      · exact e
      · rw [e] at h7; exact absurd h7 (lt_irrefl _)
    · rw [e] at h8; exact absurd h8 (lt_irrefl _)
  simp only [SyncTorque.control, h1, h2, SyncTorque.select, hf, e1, Except.map, Except.ok.injEq, Prod.mk.injEq] at ha
  rw [← ha.1, div_mul_cancel₀ _ hl'] at hq ⊢
  rw [← ha.2, div_mul_cancel₀ _ hl] at hd ⊢
  rw [inner _ _ hq, inner _ _ hd]
  exact e2

/-- a motor with magnet and the sizes of the tables of the code -/
example (c : SyncTorque) (hc : c.tab = syncTables ⟨3, 4 / 10000, 1 / 1000, 18 / 1000, 66 / 1000⟩ 240 240 400 400 300) : SyncTorque.Tabled c :=
  syncTables_tabled _ 240 400 400 300 (by norm_num) (by norm_num) (by norm_num) (Or.inl (by norm_num)) c hc

/-- and a reluctance motor -/
example (c : SyncTorque) (hc : c.tab = syncTables ⟨4, 10 / 1000, 4 / 1000, 57 / 100, 0⟩ 10 10 20 20 50) : SyncTorque.Tabled c :=
  syncTables_tabled _ 10 20 20 50 (by norm_num) (by norm_num) (by norm_num) (Or.inr (by norm_num)) c hc

/-- the answers to a series of calls -/
noncomputable def syncConvRun (c : SyncTorque) : ModSt → List ((ℕ → ℝ) × ℝ) → List (Except Err (ℝ × ℝ))
  | _, [] => []
  | st, a :: l => (c.control st a.1 a.2).2 :: syncConvRun c (c.control st a.1 a.2).1 l

/-- C130, the part of the reset that holds: after a reset all answers are the same, whatever happened before. -/
theorem c130_sync_reset_partial (c : SyncTorque) (a b : ModSt) (calls : List ((ℕ → ℝ) × ℝ)) :
    syncConvRun c (c.reset a) calls = syncConvRun c (c.reset b) calls := by
  have key : ∀ calls a b, ModSt.Same c.mod a b → syncConvRun c a calls = syncConvRun c b calls := by
    intro calls
    induction calls with
    | nil => intros; rfl
    | cons u l ih =>
      intro a b h
      have hs := same_step c.mod a b h (u.1 c.omega * c.limOmega) (u.1 c.uSd * c.limUd) (u.1 c.uSq * c.limUq)
      have hc : (c.control a u.1 u.2).2 = (c.control b u.1 u.2).2 ∧ ModSt.Same c.mod (c.control a u.1 u.2).1 (c.control b u.1 u.2).1 := by
        simp only [SyncTorque.control, SyncTorque.modulation]
        split
        · exact ⟨rfl, h⟩
        · rw [hs.1]
          split <;> exact ⟨rfl, hs.2⟩
      simp only [syncConvRun, hc.1, ih _ _ hc.2]
  exact key calls _ _ ⟨rfl, by simp [SyncTorque.reset, modReset], Or.inr rfl⟩

/-- C130 is violated: a conversion that was reset is not like a new one.  The flux it allows differs, at all states at which the modulation
controller is not at its limits. -/
theorem c130_sync_reset_violated (c : SyncTorque) (st : ModSt) (s : ℕ → ℝ) (hr : c.mod.resetValue ≠ 0)
    (ha : modulationOf c.mod (s c.uSd * c.limUd) (s c.uSq * c.limUq) ≤ 11 / 10 * c.mod.aMax) (g e : ℝ) (hg : g ≠ 0)
    (hgd : g = c.mod.iGain / (2 * max |s c.omega * c.limOmega| (1 / 10000) * c.mod.p / c.mod.uDc))
    (he : e = (c.mod.k * c.mod.aMax - modulationOf c.mod (s c.uSd * c.limUd) (s c.uSq * c.limUq)) * c.mod.tau)
    (h1 : c.mod.psiLow ≤ g * e ∧ g * e ≤ c.mod.psiHigh)
    (h2 : c.mod.psiLow ≤ g * (e + c.mod.resetValue) ∧ g * (e + c.mod.resetValue) ≤ c.mod.psiHigh) :
    (c.modulation (c.reset st) s).2 ≠ (c.modulation syncTorqueNew s).2 := by
  have e1 : (c.modulation (c.reset st) s).2 = .ok (psiAtSpeed c.mod (s c.omega * c.limOmega) + g * (e + c.mod.resetValue)) := by
    simp only [SyncTorque.modulation, Ops.modulation, SyncTorque.reset, modReset, if_neg (not_lt.mpr ha), ← hgd, ← he, if_pos h2]
  have e2 : (c.modulation syncTorqueNew s).2 = .ok (psiAtSpeed c.mod (s c.omega * c.limOmega) + g * e) := by
    have h1' : c.mod.psiLow ≤ g * (e + 0) ∧ g * (e + 0) ≤ c.mod.psiHigh := by rw [add_zero]; exact h1
    simp only [SyncTorque.modulation, Ops.modulation, syncTorqueNew, if_neg (not_lt.mpr ha), ← hgd, ← he, if_pos h1']
    rw [add_zero]
  rw [e1, e2]
  intro h
  have h3 := Except.ok.inj h
  have : g * c.mod.resetValue = 0 := by linarith
  rcases mul_eq_zero.mp this with h | h
  · exact hg h
  · exact hr h

/-- numbers for `c130_sync_reset_violated`: gain 1, no voltages -/
example : let g : ℝ := 1 / (2 * max |(1 : ℝ) * 1| (1 / 10000) * (1 / 2) / 1)
    let e : ℝ := (95 / 100 * 1 - 0) * (1 / 10)
    g ≠ 0 ∧ (-1 ≤ g * e ∧ g * e ≤ 1) ∧ (-1 ≤ g * (e + -(1 / 100)) ∧ g * (e + -(1 / 100)) ≤ 1) := by
  norm_num

/-! ## The whole cascade -/

/-- the answers of the conversion of a synchronous motor are bounded in every case -/
theorem sync_conversion_bounded (c : SyncTorque) (E : ℝ) (hE : 0 ≤ E) (hd : 0 ≤ c.nomD ∧ c.nomD ≤ E * c.limD) (hq : 0 ≤ c.nomQ ∧ c.nomQ ≤ E * c.limQ)
    (hl : 0 < c.limD) (hl' : 0 < c.limQ) (x : ModSt) (s : ℕ → ℝ) (y : ℝ) :
    |(c.conversion.control x s y).2.1| ≤ E ∧ |(c.conversion.control x s y).2.2| ≤ E := by
  have b : ∀ z a l, 0 ≤ a → a ≤ E * l → 0 < l → |clip z (-a) a / l| ≤ E := by
    intro z a l h1 h2 h3
    rw [abs_div, abs_of_pos h3, div_le_iff₀ h3]
    exact (clip_abs h1).trans h2
  simp only [SyncTorque.conversion]
  split
  · simpa using hE
  · rename_i i hi
    simp only [SyncTorque.control] at hi
    split at hi
    · exact absurd hi (by simp)
    · split at hi
      · exact absurd hi (by simp)
      · cases hsel : c.select _ y with
        | error e => rw [hsel] at hi; exact absurd hi (by simp [Except.map])
        | ok v =>
          rw [hsel] at hi
          obtain rfl := Except.ok.inj hi
          exact ⟨b _ _ _ hq.1 hq.2 hl', b _ _ _ hd.1 hd.2 hl⟩

/-- C126 for the cascaded field oriented control of synchronous motors with the conversion of the code: nothing is assumed of its answers. -/
theorem c126_sync_cascade (c : Foc) (task : Task) (o : Overlaid) (k : SyncTorque) (refD : ℕ) (g e w : Gains ℝ)
    (E : ℝ) (hE : 0 ≤ E) (hd : 0 ≤ k.nomD ∧ k.nomD ≤ E * k.limD) (hq : 0 ≤ k.nomQ ∧ k.nomQ ≤ E * k.limQ) (hl : 0 < k.limD) (hl' : 0 < k.limQ) :
    ∃ B, ∀ calls : List (Asked ℝ), (∀ a ∈ calls, a.Bounded E) → ∃ x y z t',
      cfocAfter c task o k.conversion refD ((g.new, e.new), .cont w.new, syncTorqueNew) calls = ((x, y), .cont z, t') ∧
        |iPart x| ≤ B ∧ |iPart y| ≤ B ∧ |iPart z| ≤ B :=
  c126_cascaded_foc c task o k.conversion refD g e w _ E hE (sync_conversion_bounded k E hE hd hq hl hl')

/-- the answers of the conversion of an induction motor are bounded in every case -/
theorem im_conversion_bounded (c : ImTorque) (E : ℝ) (hE : 0 ≤ E) (hd : 0 ≤ c.nomD ∧ c.nomD ≤ E * c.limD) (hq : 0 ≤ c.nomQ ∧ c.nomQ ≤ E * c.limQ)
    (hl : 0 < c.limD) (hl' : 0 < c.limQ) (n : ℝ) (x : Cont ℝ × ℝ) (s : ℕ → ℝ) (y : ℝ) :
    |((c.conversion n).control x s y).2.1| ≤ E ∧ |((c.conversion n).control x s y).2.2| ≤ E := by
  simp only [ImTorque.conversion]
  split
  · simpa using hE
  · rename_i i hi
    simp only [ImTorque.control] at hi
    split at hi
    · exact absurd hi (by simp)
    · split at hi
      · exact absurd hi (by simp)
      · obtain rfl := Except.ok.inj hi
        constructor
        · dsimp only
          cases hq' : (Option.bind _ _ : Option ℝ) with
          | none => simpa using hE
          | some q =>
            obtain ⟨t, -, hi⟩ := Option.bind_eq_some_iff.mp hq'
            have h1 := iSq_circle c hq.1 _ _ _ _ hi
            simp only [Option.map_some, Option.getD_some]
            rw [abs_div, abs_of_pos hl', div_le_iff₀ hl']
            refine le_trans ?_ hq.2
            rw [← sq_le_sq₀ (abs_nonneg _) hq.1, sq_abs]
            nlinarith [sq_nonneg (clip (x.1.control n (min ‹ℝ› (c.modulation x.2 s).2)).2 (-(9 / 10 * c.nomD)) (9 / 10 * c.nomD))]
        · dsimp only
          rw [abs_div, abs_of_pos hl, div_le_iff₀ hl]
          exact (clip_abs (by linarith [hd.1])).trans (by linarith [hd.1, hd.2])

/-- C126 for the cascaded control of induction motors with the conversion of the code; the speed as in `c126_im_partial`. -/
theorem c126_im_cascade_partial (c : ImFoc) (speed : Bool) (o : Overlaid) (k : ImTorque) (g e w : Gains ℝ) (p tau E W rho : ℝ) (hE : 0 ≤ E)
    (hd : 0 ≤ k.nomD ∧ k.nomD ≤ E * k.limD) (hq : 0 ≤ k.nomQ ∧ k.nomQ ≤ E * k.limQ) (hl : 0 < k.limD) (hl' : 0 < k.limQ)
    (hlim : ∀ j, c.limits (c.abc j) ≠ 0) (hrho : 0 ≤ rho ∧ rho < 1)
    (hstab : (1 - c.flux.tau * (c.flux.rr / c.flux.lr)) ^ 2 + (c.flux.tau * (W * c.flux.p)) ^ 2 ≤ rho ^ 2) :
    ∃ B, ∀ calls : List (Asked ℝ), (∀ a ∈ calls, a.Bounded E ∧ ∀ s r, a = .control s r → |s c.flux.omega * c.limits c.flux.omega| ≤ W) →
      ∃ x y psi z t', cimAfter c speed o k.conversion imTorqueReset (((g.new, e.new), 0), .cont w.new, imTorqueNew p tau) calls
          = (((x, y), psi), .cont z, t') ∧
        |iPart x| ≤ B ∧ |iPart y| ≤ B ∧ |iPart z| ≤ B :=
  c126_im_cascaded_partial c speed o k.conversion imTorqueReset g e w _ E W rho hE (im_conversion_bounded k E hE hd hq hl hl') hlim hrho hstab

end GEM.Props
