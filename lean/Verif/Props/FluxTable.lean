import Mathlib.Data.Nat.Sqrt
import Verif.Props.Selection

/-!
# C87 and C88: the table 'maximum torque per flux', the selection from tables
-/

set_option linter.unusedSectionVars false

namespace GEM.Props

open GEM GEM.Ops GEM.Motor

theorem mtpfTorque_eq (mp : SyncParams ℝ) (v : ℝ × ℝ) : mtpfTorque mp v = torqueOf mp v.1 v.2 := by
  rw [torqueOf_eq, mtpfTorque]

/-- the pairs found for a flux are those of the grid, with quadrature current not negative, within the limits -/
theorem mem_mtpfPairs (mp : SyncParams ℝ) (hq : 0 < mp.lq) (grid : List ℝ) (dLim qLim psi : ℝ) (hpsi : 0 ≤ psi) (x y : ℝ) :
    (x, y) ∈ mtpfPairs mp grid dLim qLim psi
      ↔ x ∈ grid ∧ 0 ≤ y ∧ fluxOf mp x y = psi ∧ √((y / qLim) ^ 2 + (x / dLim) ^ 2) ≤ 1 := by
  simp only [mtpfPairs, List.mem_filter, List.mem_map, decide_eq_true_eq, Prod.mk.injEq]
  constructor
  · rintro ⟨⟨x', ⟨h1, h2⟩, rfl, rfl⟩, h3⟩
    refine ⟨h1, by positivity, ?_, h3⟩
    rw [fluxOf, mul_div_cancel₀ _ hq.ne', Real.sq_sqrt h2, add_sub_cancel, Real.sqrt_sq hpsi]
  · rintro ⟨h1, h2, h3, h4⟩
    have e : (mp.lq * y) ^ 2 = psi ^ 2 - (mp.psiP + mp.ld * x) ^ 2 := by
      rw [← h3, fluxOf, Real.sq_sqrt (by positivity)]
      ring
    refine ⟨⟨x, ⟨h1, by rw [← e]; positivity⟩, rfl, ?_⟩, h4⟩
    rw [← e, Real.sqrt_sq (by positivity), mul_div_cancel_left₀ _ hq.ne']

/-- C87.  A motor with magnet: when a pair of sampled currents has the flux, the row has this flux and the largest torque of all
these pairs (of both signs of the quadrature current). -/
theorem c87_mtpf_magnet (mp : SyncParams ℝ) (hp : 0 < mp.p) (hm : mp.psiP ≠ 0) (hq : 0 < mp.lq) (grid : List ℝ)
    (hd : ∀ x ∈ grid, 0 ≤ mp.psiP + (mp.ld - mp.lq) * x) (dLim qLim : ℝ) (best : ℝ × ℝ × ℝ) (fluxes : List ℝ)
    (hf : ∀ psi ∈ fluxes, 0 ≤ psi) (r : Row) (hr : r ∈ mtpfRows mp grid dLim qLim best fluxes) (h0 : r.psi ≠ 0)
    (hx : ∃ x ∈ grid, ∃ y, fluxOf mp x y = r.psi ∧ √((y / qLim) ^ 2 + (x / dLim) ^ 2) ≤ 1) :
    r.iD ∈ grid ∧ fluxOf mp r.iD r.iQ = r.psi ∧ torqueOf mp r.iD r.iQ = r.t ∧ √((r.iQ / qLim) ^ 2 + (r.iD / dLim) ^ 2) ≤ 1
      ∧ ∀ x ∈ grid, ∀ y, fluxOf mp x y = r.psi → √((y / qLim) ^ 2 + (x / dLim) ^ 2) ≤ 1 → torqueOf mp x y ≤ r.t := by
  induction fluxes generalizing best with
  | nil => exact absurd hr (by simp [mtpfRows])
  | cons psi l ih =>
    have hl : ∀ psi ∈ l, 0 ≤ psi := fun a ha => hf a (by simp [ha])
    simp only [mtpfRows] at hr
    split at hr
    · rename_i h
      rcases List.mem_cons.mp hr with rfl | hr
      · exact absurd h h0
      · exact ih _ hl hr
    · split at hr
      · rcases List.mem_cons.mp hr with rfl | hr
        · have hpsi := hf psi (by simp)
          simp only at hx ⊢
          have flip : ∀ x y, fluxOf mp x |y| = fluxOf mp x y ∧ √((|y| / qLim) ^ 2 + (x / dLim) ^ 2)
              = √((y / qLim) ^ 2 + (x / dLim) ^ 2) := by
            intro x y
            simp only [fluxOf, mul_pow, div_pow, sq_abs, and_self]
          obtain ⟨x, hx1, y, hx2, hx3⟩ := hx
          have hne : mtpfPairs mp grid dLim qLim psi ≠ [] := by
            intro h
            have := (mem_mtpfPairs mp hq grid dLim qLim psi hpsi x |y|).mpr ⟨hx1, abs_nonneg _, by rw [(flip x y).1, hx2],
              by rw [(flip x y).2]; exact hx3⟩
            rw [h] at this
            exact absurd this (by simp)
          obtain ⟨⟨k, v⟩, hv⟩ := (firstMin_spec (fun v => -mtpfTorque mp v) _).2 hne
          obtain ⟨h1, h2⟩ := (firstMin_spec (fun v => -mtpfTorque mp v) _).1 k v hv
          have hmem := (mem_mtpfPairs mp hq grid dLim qLim psi hpsi v.1 v.2).mp (List.mem_of_getElem? h1)
          simp only [mtpfBest, if_neg hm, hv]
          refine ⟨hmem.1, hmem.2.2.1, (mtpfTorque_eq mp v).symm, hmem.2.2.2, fun a ha b hb1 hb2 => ?_⟩
          have h3 := h2 (a, |b|) ((mem_mtpfPairs mp hq grid dLim qLim psi hpsi a |b|).mpr ⟨ha, abs_nonneg _,
            by rw [(flip a b).1, hb1], by rw [(flip a b).2]; exact hb2⟩)
          have h4 : torqueOf mp a b ≤ torqueOf mp a |b| := by
            rw [torqueOf_eq, torqueOf_eq]
            have := hd a ha
            gcongr
            exact le_abs_self b
          simp only [mtpfTorque_eq] at h3 ⊢
          linarith
        · exact ih _ hl hr
      · exact ih _ hl hr

/-- magnet flux 1, inductances 1, limits 2: the flux 1 is made with the direct current 0 -/
example : ∃ x ∈ ([-1, 0] : List ℝ), ∃ y, fluxOf ⟨1, 1, 1, 1, 1⟩ x y = 1 ∧ √((y / 2) ^ 2 + (x / 2) ^ 2) ≤ 1 :=
  ⟨0, by simp, 0, by norm_num [fluxOf], by norm_num⟩

/-- C87 is violated by the fluxes that no sampled pair has, all fluxes below `psi_p - l_d i_sd_limit`: the row has the flux of
the magnet. -/
theorem c87_mtpf_magnet_violated (mp : SyncParams ℝ) (hm : 0 < mp.psiP) (hq : 0 < mp.lq) (grid : List ℝ) (dLim qLim : ℝ)
    (fluxes : List ℝ) (hf : ∀ psi ∈ fluxes, 0 ≤ psi ∧ ∀ x ∈ grid, psi < mp.psiP + mp.ld * x) (h0 : 0 ∈ grid) (r : Row)
    (hr : r ∈ mtpfRows mp grid dLim qLim (0, 0, 0) fluxes) (hr0 : r.psi ≠ 0) :
    r.t = 0 ∧ r.iD = 0 ∧ r.iQ = 0 ∧ fluxOf mp r.iD r.iQ = mp.psiP ∧ r.psi < mp.psiP := by
  have hnone : ∀ psi ∈ fluxes, mtpfPairs mp grid dLim qLim psi = [] := by
    intro psi hpsi
    obtain ⟨h1, h2⟩ := hf psi hpsi
    rw [List.eq_nil_iff_forall_not_mem]
    rintro ⟨x, y⟩ hxy
    obtain ⟨h3, h4, h5, -⟩ := (mem_mtpfPairs mp hq grid dLim qLim psi h1 x y).mp hxy
    have h6 := h2 x h3
    rw [← h5, fluxOf] at h6
    refine absurd h6 (not_lt.mpr ?_)
    exact Real.le_sqrt_of_sq_le (by nlinarith [sq_nonneg (mp.lq * y)])
  have key : r.t = 0 ∧ r.iD = 0 ∧ r.iQ = 0 ∧ r.psi ∈ fluxes := by
    clear hf
    induction fluxes with
    | nil => exact absurd hr (by simp [mtpfRows])
    | cons psi l ih =>
      have hn := hnone psi (by simp)
      have ih := fun hr => ih hr fun a ha => hnone a (by simp [ha])
      simp only [mtpfRows, mtpfBest, if_neg hm.ne', hn, firstMin] at hr
      split at hr
      · rename_i h
        rcases List.mem_cons.mp hr with rfl | hr
        · exact absurd h hr0
        · obtain ⟨a, b, c, d⟩ := ih hr
          exact ⟨a, b, c, by simp [d]⟩
      · split at hr
        · rcases List.mem_cons.mp hr with rfl | hr
          · simp
          · obtain ⟨a, b, c, d⟩ := ih hr
            exact ⟨a, b, c, by simp [d]⟩
        · obtain ⟨a, b, c, d⟩ := ih hr
          exact ⟨a, b, c, by simp [d]⟩
  obtain ⟨a, b, c, d⟩ := key
  refine ⟨a, b, c, ?_, ?_⟩
  · rw [b, c, fluxOf]
    simp [Real.sqrt_sq hm.le]
  · simpa using (hf _ d).2 0 h0

/-- magnet flux 1, inductance 0.1, currents from -1 to 0: the flux 0.5 has no pair -/
example : ∀ x ∈ ([-1, 0] : List ℝ), (0.5 : ℝ) < 1 + 0.1 * x := by
  intro x hx
  rcases List.mem_cons.mp hx with rfl | hx
  · norm_num
  · rw [List.mem_singleton.mp hx]; norm_num

/-! ## Rows that are kept -/

/-- with equal limits of the currents every row of a motor with magnet is kept -/
theorem mtpfRows_psi (mp : SyncParams ℝ) (hm : mp.psiP ≠ 0) (grid : List ℝ) (lim : ℝ) (hl : 0 < lim) (best : ℝ × ℝ × ℝ)
    (hb : √(best.2.1 ^ 2 + best.2.2 ^ 2) ≤ lim) (fluxes : List ℝ) :
    (mtpfRows mp grid lim lim best fluxes).map (fun r => r.psi) = fluxes := by
  induction fluxes generalizing best with
  | nil => rfl
  | cons psi l ih =>
    have hk : √((mtpfBest mp grid lim lim best psi).2.1 ^ 2 + (mtpfBest mp grid lim lim best psi).2.2 ^ 2) ≤ lim := by
      simp only [mtpfBest, if_neg hm]
      split
      · exact hb
      · rename_i k v hv
        have := List.mem_of_getElem? ((firstMin_spec _ _).1 k v hv).1
        simp only [mtpfPairs, List.mem_filter, decide_eq_true_eq] at this
        have h1 := this.2
        rw [div_pow, div_pow, ← add_div, Real.sqrt_div (by positivity), Real.sqrt_sq hl.le, div_le_one hl] at h1
        rwa [add_comm] at h1
    simp only [mtpfRows]
    split
    · simp only [List.map_cons, ih (0, best.2) hb]
    · simp only [hk, if_true, List.map_cons, ih _ hk]

theorem foldl_max_linspace (a : ℝ) (ha : 0 ≤ a) (d : ℝ) (hd : 0 ≤ d) (m : ℕ) :
    ((List.range m).map fun k : ℕ => a + k * d).foldl max 0 = if m = 0 then 0 else a + (m - 1 : ℕ) * d := by
  induction m with
  | zero => rfl
  | succ m ih =>
    rw [List.range_succ, List.map_append, List.foldl_append, ih]
    simp only [List.map_cons, List.map_nil, List.foldl_cons, List.foldl_nil, Nat.add_sub_cancel, Nat.succ_ne_zero, if_false]
    split
    · rw [max_eq_right (by positivity)]
    · rw [max_eq_right]
      gcongr
      exact Nat.sub_le m 1

/-- the flux of a row of the table from the fluxes of the rows that were kept -/
theorem mtpfTable_psi (rows : List Row) (i : ℕ) :
    ((((rows.map fun r => { r with t := -r.t, iQ := -r.iQ }).reverse ++ rows) : List Row)[i]?).map (fun r => r.psi)
      = ((rows.map fun r => r.psi).reverse ++ rows.map fun r => r.psi)[i]? := by
  rw [← List.getElem?_map]
  congr 1
  simp [Function.comp_def]

/-- C88.  Motor with magnet, equal limits of the two currents: for every flux the row that is read has the flux of the table
that is nearest to the flux, cut to the range of the table. -/
theorem c88_mtpf_partial (mp : SyncParams ℝ) (hm : mp.psiP ≠ 0) (hq : mp.lq ≠ 0) (grid : List ℝ) (lim : ℝ) (hl : 0 < lim) (n : ℕ)
    (hn : 2 ≤ n) (psi : ℝ) :
    let tab := mtpfTable mp grid lim lim n
    tab.2 = mtpfFlux mp lim lim ∧
    ∃ r, at? tab.1 (idxMtpf tab.2 n psi) = .ok r ∧ |r.psi - clip psi 0 tab.2| ≤ tab.2 / (n - 1) / 2 := by
  intro tab
  set P := mtpfFlux mp lim lim with hP
  have hP0 : 0 < P := by
    rw [hP, mtpfFlux]
    have := sq_pos_of_ne_zero (mul_ne_zero hq hl.ne')
    exact Real.sqrt_pos.mpr (by positivity)
  have hn1 : (0 : ℝ) < n - 1 := by
    have : (2 : ℝ) ≤ n := by exact_mod_cast hn
    linarith
  have hrows := mtpfRows_psi mp hm grid lim hl (0, 0, 0) (by simp [hl.le]) (linspace 0 P n)
  set rows := mtpfRows mp grid lim lim (0, 0, 0) (linspace 0 P n) with hR
  have htab : tab = ((rows.map fun r => { r with t := -r.t, iQ := -r.iQ }).reverse ++ rows,
      (rows.map fun r => r.psi).foldl max 0) := rfl
  have h2 : tab.2 = P := by
    rw [htab]
    simp only [hrows]
    rw [linspace, sub_zero, foldl_max_linspace 0 le_rfl _ (by positivity), if_neg (by omega), Nat.cast_sub (by omega)]
    push_cast
    field_simp
    ring
  refine ⟨h2, ?_⟩
  rw [h2]
  set z := psi / P * ((n : ℝ) - 1) with hz
  set i := idxMtpf P n psi with hi
  have hi' : i = clip ((n - 1) - pyRound z) 0 n := rfl
  have hi0 : 0 ≤ i := by rw [hi', clip]; exact le_min (le_max_right _ _) (by omega)
  have hin : i ≤ n := by rw [hi', clip]; exact min_le_right _ _
  have hlen : rows.length = n := by
    have := congrArg List.length hrows
    simpa [linspace] using this
  have hpsi := mtpfTable_psi rows i.toNat
  have hlt : i.toNat < tab.1.length := by
    rw [htab]
    simp only [List.length_append, List.length_reverse, List.length_map]
    omega
  refine ⟨tab.1[i.toNat], by rw [at?, List.getElem?_eq_getElem hlt], ?_⟩
  have hr : (tab.1[i.toNat]).psi = ((n - 1 - i).toNat : ℝ) * (P / (n - 1)) := by
    have h3 : (tab.1[i.toNat]?).map (fun r => r.psi) = some (tab.1[i.toNat]).psi := by
      rw [List.getElem?_eq_getElem hlt, Option.map_some]
    have h4 := h3.symm.trans hpsi
    rw [hrows, linspace] at h4
    generalize (tab.1[i.toNat]).psi = v at h4 ⊢
    by_cases hlast : i.toNat < n
    · rw [List.getElem?_append_left (by simpa using hlast), List.getElem?_reverse (by simpa using hlast)] at h4
      simp only [List.length_map, List.length_range, List.getElem?_map] at h4
      rw [List.getElem?_range (by omega)] at h4
      simp only [Option.map_some, sub_zero, zero_add] at h4
      rw [Option.some.inj h4]
      congr 2
      omega
    · rw [List.getElem?_append_right (by simpa using hlast)] at h4
      have : i.toNat = n := by omega
      simp only [List.length_reverse, List.length_map, List.length_range, List.getElem?_map, this, Nat.sub_self] at h4
      rw [List.getElem?_range (by omega)] at h4
      simp only [Option.map_some, sub_zero, zero_add, Nat.cast_zero, zero_mul] at h4
      rw [Option.some.inj h4]
      have : (n - 1 - i : ℤ).toNat = 0 := by omega
      rw [this]
      simp
  rw [hr]
  have hnear := pyRound_near z
  have hstep : 0 < P / ((n : ℝ) - 1) := by positivity
  -- the index is that of the flux cut to the range
  have hmain : |((n - 1 - i).toNat : ℝ) - clip z 0 (n - 1)| ≤ 1 / 2 := by
    rcases lt_or_ge z 0 with hz0 | hz0
    · have h5 : pyRound z ≤ 0 := (pyRound_mono_bounds (a := ⌊z⌋) (b := 0) (Int.floor_le z) (by simpa using hz0.le)).2
      have : (n - 1 - i).toNat = 0 := by
        rw [hi', clip]
        omega
      rw [this, clip, max_eq_right hz0.le, min_eq_left hn1.le]
      norm_num
    · rcases le_or_gt z (n - 1) with hz1 | hz1
      · have h5 := pyRound_mono_bounds (x := z) (a := 0) (b := (n - 1 : ℤ)) (by simpa using hz0) (by push_cast; exact hz1)
        have : ((n - 1 - i).toNat : ℤ) = pyRound z := by
          rw [hi', clip]
          omega
        have h6 : ((n - 1 - i).toNat : ℝ) = (pyRound z : ℝ) := by exact_mod_cast this
        rw [h6, clip, max_eq_left hz0, min_eq_left hz1]
        exact hnear
      · have h5 := (pyRound_mono_bounds (x := z) (a := (n - 1 : ℤ)) (b := ⌈z⌉) (by push_cast; exact hz1.le) (Int.le_ceil z)).1
        have : (n - 1 - i).toNat = n - 1 := by
          rw [hi', clip]
          omega
        rw [this, clip, max_eq_left hz0, min_eq_right hz1.le, Nat.cast_sub (by omega)]
        norm_num
  have hc : clip psi 0 P = clip z 0 (n - 1) * (P / (n - 1)) := by
    have hs : psi = z * (P / (n - 1)) := by
      rw [hz]
      field_simp
    have hs2 : P = ((n : ℝ) - 1) * (P / (n - 1)) := by field_simp
    have hs3 : clip psi 0 P = min (max (z * (P / (n - 1))) (0 * (P / (n - 1)))) (((n : ℝ) - 1) * (P / (n - 1))) := by
      rw [← hs, ← hs2, zero_mul, clip]
    rw [hs3, clip, ← max_mul_of_nonneg _ _ hstep.le, ← min_mul_of_nonneg _ _ hstep.le]
  rw [hc, ← sub_mul, abs_mul, abs_of_pos hstep]
  calc _ ≤ 1 / 2 * (P / ((n : ℝ) - 1)) := mul_le_mul_of_nonneg_right hmain hstep.le
    _ = _ := by ring

/-! ## Motors without magnet -/

/-- the number of rows a motor without magnet keeps -/
def keptRows (n : ℕ) : ℕ := Nat.sqrt ((n - 1) ^ 2 / 2) + 1

theorem lt_keptRows (n k : ℕ) : k < keptRows n ↔ 2 * k ^ 2 ≤ (n - 1) ^ 2 := by
  rw [keptRows, Nat.lt_succ_iff, Nat.le_sqrt', Nat.le_div_iff_mul_le (by norm_num), mul_comm]

/-- the rows of a motor without magnet with equal limits: a part of the fluxes is dropped -/
theorem mtpfRows_reluctance (mp : SyncParams ℝ) (hm : mp.psiP = 0) (hs : 0 < mp.ld ^ 2 + mp.lq ^ 2) (grid : List ℝ) (lim : ℝ)
    (hl : 0 < lim) (best : ℝ × ℝ × ℝ) (fluxes : List ℝ) (hf : ∀ psi ∈ fluxes, 0 ≤ psi) :
    mtpfRows mp grid lim lim best fluxes
      = (fluxes.filter fun psi => decide (2 * psi ^ 2 ≤ mtpfFlux mp lim lim ^ 2)).map fun psi =>
        ⟨mtpfTorque mp (mtpfReluctance mp psi), (mtpfReluctance mp psi).1, (mtpfReluctance mp psi).2, psi⟩ := by
  have hS := Real.sqrt_pos.mpr hs
  induction fluxes generalizing best with
  | nil => rfl
  | cons psi l ih =>
    have ih := fun best => ih best fun a ha => hf a (by simp [ha])
    have hpsi := hf psi (by simp)
    have hflux : mtpfFlux mp lim lim ^ 2 = lim ^ 2 * (mp.ld ^ 2 + mp.lq ^ 2) := by
      rw [mtpfFlux, Real.sq_sqrt (by positivity), hm]
      ring
    by_cases h0 : psi = 0
    · subst h0
      simp only [mtpfRows, if_true, ih]
      rw [List.filter_cons_of_pos (by rw [hflux]; simp; positivity)]
      simp [mtpfReluctance, mtpfTorque, hm]
    · have hcond : √((mtpfBest mp grid lim lim best psi).2.1 ^ 2 + (mtpfBest mp grid lim lim best psi).2.2 ^ 2) ≤ lim
          ↔ 2 * psi ^ 2 ≤ mtpfFlux mp lim lim ^ 2 := by
        simp only [mtpfBest, if_pos hm, mtpfReluctance]
        rw [Real.sqrt_le_left hl.le, neg_sq, div_pow, Real.sq_sqrt hs.le, hflux, ← add_div, div_le_iff₀ hs, two_mul]
      by_cases hk : 2 * psi ^ 2 ≤ mtpfFlux mp lim lim ^ 2
      · simp only [mtpfRows, if_neg h0, if_pos (hcond.mpr hk), ih]
        rw [List.filter_cons_of_pos (by simpa using hk)]
        simp [mtpfBest, hm]
      · simp only [mtpfRows, if_neg h0, if_neg (fun h => hk (hcond.mp h)), ih]
        rw [List.filter_cons_of_neg (by simpa using hk)]

theorem filter_range_lt (n m : ℕ) (h : m ≤ n) : (List.range n).filter (fun k => decide (k < m)) = List.range m := by
  induction n with
  | zero =>
    have : m = 0 := by omega
    subst this
    rfl
  | succ n ih =>
    rw [List.range_succ, List.filter_append]
    rcases Nat.lt_or_ge n m with hn | hn
    · have : m = n + 1 := by omega
      subst this
      rw [List.filter_cons_of_pos (by simp), List.filter_nil, List.range_succ]
      congr 1
      rw [List.filter_eq_self]
      intro a ha
      have := List.mem_range.mp ha
      simp only [decide_eq_true_eq]
      omega
    · rw [ih hn, List.filter_cons_of_neg (by simpa using hn), List.filter_nil, List.append_nil]

/-- C88 is violated by the motors without magnet.  With equal limits of the currents only part of the rows is kept, but the
position is computed with the full number of rows: for small fluxes a row of larger flux is read, and the torque is limited to
more than the largest torque of the wanted flux.  With 250 rows (`m = 177`) this happens up to 16 per cent of the largest flux. -/
theorem c88_mtpf_violated (mp : SyncParams ℝ) (hp : 0 < mp.p) (hm : mp.psiP = 0) (hd : 0 < mp.ld) (hne : mp.ld ≠ mp.lq)
    (grid : List ℝ) (lim : ℝ) (hl : 0 < lim) (n : ℕ) (hn : 3 ≤ n) (psi : ℝ) (hpsi : 0 ≤ psi) :
    let tab := mtpfTable mp grid lim lim n
    let m := keptRows n
    let step := mtpfFlux mp lim lim / (n - 1)
    tab.2 = (m - 1) * step ∧
    (psi * (1 + (n - 1) / (m - 1)) < (n - 1 - m - 1 / 2) * step →
      ∃ r, at? tab.1 (idxMtpf tab.2 n psi) = .ok r ∧ psi < r.psi ∧
        |torqueOf mp (mtpfReluctance mp psi).1 (mtpfReluctance mp psi).2| < |r.t|) := by
  intro tab m step
  set P := mtpfFlux mp lim lim with hP
  have hs : 0 < mp.ld ^ 2 + mp.lq ^ 2 := by positivity
  have hP0 : 0 < P := by
    rw [hP, mtpfFlux, hm]
    exact Real.sqrt_pos.mpr (by positivity)
  have hn1 : (0 : ℝ) < n - 1 := by
    have : (3 : ℝ) ≤ n := by exact_mod_cast hn
    linarith
  have hstep : 0 < step := by positivity
  have hm2 : 2 ≤ m := (lt_keptRows n 1).mpr (by
    have : 2 ^ 2 ≤ (n - 1) ^ 2 := Nat.pow_le_pow_left (by omega) 2
    omega)
  have hmn : m ≤ n := by
    by_contra h
    have := (lt_keptRows n n).mp (by omega)
    have h2 : (n - 1) ^ 2 < n ^ 2 := Nat.pow_lt_pow_left (by omega) (by norm_num)
    omega
  have hm1 : (0 : ℝ) < m - 1 := by
    have : (2 : ℝ) ≤ m := by exact_mod_cast hm2
    linarith
  have hlin : (linspace 0 P n).filter (fun psi => decide (2 * psi ^ 2 ≤ P ^ 2)) = (List.range m).map fun k : ℕ => k * step := by
    rw [linspace, List.filter_map, ← filter_range_lt n m hmn]
    have : ∀ k ∈ List.range n, ((fun psi => decide (2 * psi ^ 2 ≤ P ^ 2)) ∘ fun k : ℕ => 0 + (k : ℝ) * ((P - 0) / (n - 1))) k
        = decide (k < m) := by
      intro k hk
      simp only [Function.comp, decide_eq_decide, zero_add, sub_zero]
      rw [lt_keptRows, ← Nat.cast_le (α := ℝ)]
      push_cast
      rw [Nat.cast_sub (by omega), Nat.cast_one, mul_pow, div_pow, ← mul_assoc, ← mul_div_assoc, div_le_iff₀ (by positivity),
        mul_comm (P ^ 2)]
      exact mul_le_mul_iff_left₀ (by positivity)
    rw [List.filter_congr this]
    refine List.map_congr_left fun k _ => ?_
    simp only [step, sub_zero, zero_add, hP]
  set row : ℝ → Row := fun psi =>
    ⟨mtpfTorque mp (mtpfReluctance mp psi), (mtpfReluctance mp psi).1, (mtpfReluctance mp psi).2, psi⟩ with hrow
  have hrows : mtpfRows mp grid lim lim (0, 0, 0) (linspace 0 P n) = (List.range m).map fun k : ℕ => row (k * step) := by
    rw [mtpfRows_reluctance mp hm hs grid lim hl _ _ (by
      intro x hx
      simp only [linspace, List.mem_map] at hx
      obtain ⟨k, -, rfl⟩ := hx
      simp only [sub_zero, zero_add]
      positivity), hlin, List.map_map]
    rfl
  have htab : tab = ((((List.range m).map fun k : ℕ => row (k * step)).map
      fun r => { r with t := -r.t, iQ := -r.iQ }).reverse ++ (List.range m).map fun k : ℕ => row (k * step),
      (((List.range m).map fun k : ℕ => row (k * step)).map fun r => r.psi).foldl max 0) := by
    rw [← hrows]
    rfl
  have h2 : tab.2 = (m - 1) * step := by
    rw [htab]
    simp only [List.map_map]
    have := foldl_max_linspace 0 le_rfl step hstep.le m
    simp only [zero_add] at this
    rw [show ((fun r : Row => r.psi) ∘ fun k : ℕ => row (k * step)) = fun k : ℕ => (k : ℝ) * step from rfl, this,
      if_neg (by omega), Nat.cast_sub (by omega), Nat.cast_one]
  refine ⟨h2, fun hlt => ?_⟩
  rw [h2]
  set z := psi / ((m - 1) * step) * ((n : ℝ) - 1) with hz
  set i := idxMtpf ((m - 1) * step) n psi with hi
  have hi' : i = clip ((n - 1) - pyRound z) 0 n := rfl
  have hz0 : 0 ≤ z := by positivity
  have hnear := abs_le.mp (pyRound_near z)
  have hzs : psi + z * step = psi * (1 + (n - 1) / (m - 1)) := by
    rw [hz]
    field_simp
  have hb : psi < (n - 1 - m - pyRound z) * step := by
    have : (pyRound z : ℝ) * step ≤ (z + 1 / 2) * step := mul_le_mul_of_nonneg_right (by linarith) hstep.le
    nlinarith
  have hpos : (0 : ℝ) < n - 1 - m - pyRound z := by
    by_contra h
    have := mul_nonpos_of_nonpos_of_nonneg (not_lt.mp h) hstep.le
    linarith
  have hposZ : 0 < (n : ℤ) - 1 - m - pyRound z := by exact_mod_cast hpos
  have hr0 : 0 ≤ pyRound z := (pyRound_mono_bounds (a := 0) (b := ⌈z⌉) (by simpa using hz0) (Int.le_ceil z)).1
  have hieq : i = n - 1 - pyRound z := by
    rw [hi', clip]
    omega
  obtain ⟨j, hj⟩ := Int.eq_ofNat_of_zero_le hposZ.le
  have hji : i.toNat = m + j := by omega
  have hjm : j < m := by
    -- fewer rows are dropped than kept
    have h3 : (n - 1 - m) < m := by
      by_contra h
      have h4 := (lt_keptRows n m).not.mp (lt_irrefl _)
      have h5 : (2 * m) ^ 2 ≤ (n - 1) ^ 2 := Nat.pow_le_pow_left (by omega) 2
      have h6 : (2 * m) ^ 2 = 2 * (2 * m ^ 2) := by ring
      have h7 : 0 < m ^ 2 := by positivity
      omega
    omega
  refine ⟨row (j * step), ?_, ?_, ?_⟩
  · rw [at?, hji, htab]
    simp only
    rw [List.getElem?_append_right (by simp)]
    simp only [List.length_reverse, List.length_map, List.length_range, Nat.add_sub_cancel_left, List.getElem?_map]
    rw [List.getElem?_range hjm]
    rfl
  · have : ((n : ℝ) - 1 - m - pyRound z) = j := by exact_mod_cast hj
    rw [this] at hb
    exact hb
  · have hjr : ((n : ℝ) - 1 - m - pyRound z) = j := by exact_mod_cast hj
    rw [hjr] at hb
    have ht : ∀ x, torqueOf mp (mtpfReluctance mp x).1 (mtpfReluctance mp x).2
        = -(3 / 2 * mp.p * (mp.ld - mp.lq) / (mp.ld ^ 2 + mp.lq ^ 2)) * x ^ 2 := by
      intro x
      rw [torqueOf_eq, hm]
      simp only [mtpfReluctance]
      rw [show 3 / 2 * mp.p * (0 + (mp.ld - mp.lq) * -(x / √(mp.ld ^ 2 + mp.lq ^ 2))) * (x / √(mp.ld ^ 2 + mp.lq ^ 2))
        = -(3 / 2 * mp.p * (mp.ld - mp.lq) * x ^ 2 / √(mp.ld ^ 2 + mp.lq ^ 2) ^ 2) by ring, Real.sq_sqrt hs.le]
      ring
    simp only [hrow, mtpfTorque_eq, ht, abs_mul]
    apply mul_lt_mul_of_pos_left
    · rw [abs_of_nonneg (by positivity), abs_of_nonneg (by positivity)]
      gcongr
    · rw [abs_pos, neg_ne_zero]
      have := sub_ne_zero.mpr hne
      positivity

/-- 250 rows: 177 are kept, and a flux of 0.16 of the largest one is small enough -/
example : keptRows 250 = 177 ∧ (0.16 : ℝ) * (177 - 1) * (1 + (250 - 1) / (177 - 1)) < 250 - 1 - 177 - 1 / 2 :=
  ⟨by rw [keptRows, ← Nat.eq_sqrt.mpr (show 176 * 176 ≤ (250 - 1) ^ 2 / 2 ∧ (250 - 1) ^ 2 / 2 < (176 + 1) * (176 + 1) by norm_num)],
    by norm_num⟩

/-! ## Currents that are selected -/

theorem cut_pair (s o f : ℝ × ℝ) :
    let s1 := if o.1 < s.1 then o else s
    let s2 := if s1.1 < f.1 then f else s1
    (f.1 ≤ s2.1 ∧ s2.1 ≤ max o.1 f.1) ∧ (s2 = s ∧ s.1 ≤ o.1 ∨ s2 = o ∨ s2 = f) := by
  intro s1 s2
  have h1 : s1.1 ≤ o.1 ∧ (s1 = s ∧ s.1 ≤ o.1 ∨ s1 = o) := by
    by_cases h : o.1 < s.1
    · rw [show s1 = o from if_pos h]
      exact ⟨le_rfl, .inr rfl⟩
    · rw [show s1 = s from if_neg h]
      exact ⟨not_lt.mp h, .inl ⟨rfl, not_lt.mp h⟩⟩
  by_cases h : s1.1 < f.1
  · rw [show s2 = f from if_pos h]
    exact ⟨⟨le_rfl, le_max_right _ _⟩, .inr (.inr rfl)⟩
  · rw [show s2 = s1 from if_neg h]
    refine ⟨⟨not_lt.mp h, h1.1.trans (le_max_left _ _)⟩, ?_⟩
    rcases h1.2 with h2 | h2
    · exact .inl h2
    · exact .inr (.inl h2)

/-- C87.  The direct current selected online is never below the one of the row of the flux table and never above both rows. -/
theorem c87_online_range (c : Sync) (root : ℝ → ℝ → ℝ) (psiMod torque : ℝ) (opt f : Row)
    (h1 : at? c.mtpc (idxMtpc c.maxTorque c.tCount torque) = .ok opt)
    (h2 : at? c.mtpf (idxMtpf c.psiMaxMtpf c.psiCount (min opt.psi psiMod)) = .ok f) :
    ∃ x y, selectOnline c root psiMod torque = .ok (x, y) ∧ f.iD ≤ x ∧ x ≤ max opt.iD f.iD := by
  simp only [selectOnline, h1, h2]
  generalize (if |f.t| < |torque| then sign torque * |f.t| else torque) = t
  exact ⟨_, _, rfl, (cut_pair (pmsmSolve c.mp t (root t (min opt.psi psiMod))) (opt.iD, opt.iQ) (f.iD, sign t * |f.iQ|)).1⟩

/-- torque of a pair of which only the sign of the quadrature current is chosen -/
theorem torqueOf_sign (mp : SyncParams ℝ) (hp : 0 < mp.p) (x y t T : ℝ) (hx : 0 ≤ mp.psiP + (mp.ld - mp.lq) * x)
    (h : |torqueOf mp x y| = T) : torqueOf mp x (sign t * |y|) = sign t * T := by
  rw [← h, torqueOf_eq, torqueOf_eq, abs_mul, abs_of_nonneg (by positivity : 0 ≤ 3 / 2 * mp.p * (mp.psiP + (mp.ld - mp.lq) * x))]
  ring

/-- the torque after the limit of the flux table: the same direction, the smaller size -/
theorem limited_torque (torque T : ℝ) (hT : 0 ≤ T) :
    |if T < |torque| then sign torque * T else torque| = min |torque| T
      ∧ 0 ≤ (if T < |torque| then sign torque * T else torque) * torque := by
  split
  · rename_i h
    have h0 : torque ≠ 0 := by
      rintro rfl
      rw [abs_zero] at h
      linarith
    rw [min_eq_right h.le]
    rcases lt_or_gt_of_ne h0 with h0 | h0
    · rw [sign_neg h0]
      exact ⟨by rw [neg_one_mul, abs_neg, abs_of_nonneg hT], by nlinarith⟩
    · rw [sign_pos h0]
      exact ⟨by rw [one_mul, abs_of_nonneg hT], by nlinarith⟩
  · rename_i h
    exact ⟨by rw [min_eq_left (not_lt.mp h)], mul_self_nonneg _⟩

/-- C87.  A motor with magnet and `l_d ≤ l_q`, consistent rows: the torque of the currents selected online is the wanted one,
limited to the torque of the row of the flux table, or the torque of one of the two rows. -/
theorem c87_online_cases (c : Sync) (hp : 0 < c.mp.p) (hm : 0 < c.mp.psiP) (hl : c.mp.ld ≤ c.mp.lq)
    (root : ℝ → ℝ → ℝ) (psiMod torque : ℝ) (opt f : Row)
    (h1 : at? c.mtpc (idxMtpc c.maxTorque c.tCount torque) = .ok opt)
    (h2 : at? c.mtpf (idxMtpf c.psiMaxMtpf c.psiCount (min opt.psi psiMod)) = .ok f)
    (ho : torqueOf c.mp opt.iD opt.iQ = opt.t) (hf : torqueOf c.mp f.iD f.iQ = f.t) (hod : opt.iD ≤ 0) (hfd : f.iD ≤ 0) :
    ∃ x y t, selectOnline c root psiMod torque = .ok (x, y) ∧ |t| = min |torque| |f.t| ∧ 0 ≤ t * torque ∧
      (torqueOf c.mp x y = t ∨ torqueOf c.mp x y = opt.t ∧ x = opt.iD ∨ torqueOf c.mp x y = sign t * |f.t| ∧ x = f.iD) := by
  have hi : invert c.mp = 1 := if_neg fun h => hm.ne' h.1
  have hpos : ∀ x ≤ 0, 0 < c.mp.psiP + (c.mp.ld - c.mp.lq) * x := fun x hx => by nlinarith
  set t := if |f.t| < |torque| then sign torque * |f.t| else torque with ht
  obtain ⟨h3, h4⟩ := limited_torque torque |f.t| (abs_nonneg _)
  simp only [selectOnline, h1, h2, ← ht]
  refine ⟨_, _, t, rfl, h3, h4, ?_⟩
  rw [hi, one_mul]
  rcases (cut_pair (pmsmSolve c.mp t (root t (min opt.psi psiMod))) (opt.iD, opt.iQ) (f.iD, sign t * |f.iQ|)).2
    with ⟨e, h5⟩ | e | e <;> simp only at e <;> rw [e]
  · left
    rw [torqueOf_eq]
    have := hpos (root t (min opt.psi psiMod)) (le_trans h5 hod)
    simp only [pmsmSolve]
    field_simp
  · exact .inr (.inl ⟨ho, rfl⟩)
  · exact .inr (.inr ⟨torqueOf_sign c.mp hp _ _ _ _ (hpos _ hfd).le (by rw [hf]), rfl⟩)

/-- C88.  Tables over torque and flux: every value has a row, the nearest to the value cut to the axis. -/
theorem c88_axis (a b : ℝ) (hab : a < b) (n : ℕ) (hn : 2 ≤ n) (x : ℝ) :
    0 ≤ idxAxis a b n x ∧ idxAxis a b n x < n ∧ |axis a b n (idxAxis a b n x) - clip x a b| ≤ (b - a) / (n - 1) / 2 := by
  have hn1 : (0 : ℝ) < n - 1 := by
    have : (2 : ℝ) ≤ n := by exact_mod_cast hn
    linarith
  have hba : 0 < b - a := sub_pos.mpr hab
  have h0 : a ≤ clip x a b := le_min (le_max_right _ _) hab.le
  have h1 : clip x a b ≤ b := min_le_right _ _
  set z := (clip x a b - a) / (b - a) * ((n : ℝ) - 1) with hz
  have hz0 : 0 ≤ z := mul_nonneg (div_nonneg (by linarith) hba.le) hn1.le
  have hz1 : z ≤ ((n - 1 : ℤ) : ℝ) := by
    push_cast
    have : (clip x a b - a) / (b - a) ≤ 1 := by rw [div_le_one hba]; linarith
    calc z ≤ 1 * ((n : ℝ) - 1) := mul_le_mul_of_nonneg_right this hn1.le
      _ = n - 1 := one_mul _
  obtain ⟨h3, h4⟩ := pyRound_mono_bounds (a := 0) (by simpa using hz0) hz1
  have hi : idxAxis a b n x = pyRound z := rfl
  refine ⟨by omega, by omega, ?_⟩
  have e : axis a b n (idxAxis a b n x) - clip x a b = ((pyRound z : ℝ) - z) * ((b - a) / (n - 1)) := by
    rw [axis, hi, hz]
    field_simp
    ring
  rw [e, abs_mul, abs_of_pos (show 0 < (b - a) / ((n : ℝ) - 1) by positivity)]
  calc _ ≤ 1 / 2 * ((b - a) / ((n : ℝ) - 1)) := mul_le_mul_of_nonneg_right (pyRound_near z) (by positivity)
    _ = _ := by ring

/-- C87.  `torque_control = 'analytical'`, a motor with magnet or `l_d ≤ l_q`: when an entry of the table is taken, its torque
is at most half a step of the table away from the wanted one, cut to the range of the table. -/
theorem c87_table_partial (c : Sync) (hp : c.mp.p ≠ 0) (hl : c.mp.psiP ≠ 0 ∨ c.mp.ld ≤ c.mp.lq) (root : ℝ → ℝ → ℝ)
    (tMin tMax psiMin psiMax : ℝ) (hT : tMin < tMax) (hn : 2 ≤ c.tCount) (psiMod torque : ℝ) (opt f : Row)
    (h1 : at? c.mtpc (idxMtpc c.maxTorque c.tCount torque) = .ok opt)
    (h2 : at? c.mtpf (idxMtpf c.psiMaxMtpf c.psiCount (min opt.psi psiMod)) = .ok f) (ht : |torque| ≤ |f.t|)
    (v : ℝ × ℝ) (hv : v = (Lut.analytical c.mp root tMin tMax psiMin psiMax c.tCount c.psiCount).idq
      (idxAxis tMin tMax c.tCount torque) (idxAxis psiMin psiMax c.psiCount (min opt.psi psiMod)))
    (hr1 : f.iD < v.1) (hr2 : v.1 ≤ opt.iD) (hr3 : c.mp.psiP + (c.mp.ld - c.mp.lq) * v.1 ≠ 0) :
    ∃ x y, selectTable c (Lut.analytical c.mp root tMin tMax psiMin psiMax c.tCount c.psiCount) psiMod torque = .ok (x, y)
      ∧ |torqueOf c.mp x y - clip torque tMin tMax| ≤ (tMax - tMin) / (c.tCount - 1) / 2 := by
  have hi : invert c.mp = 1 := by
    rw [invert, if_neg]
    rintro ⟨a, b⟩
    rcases hl with hl | hl
    · exact hl a
    · linarith
  set lut := Lut.analytical c.mp root tMin tMax psiMin psiMax c.tCount c.psiCount with hlut
  have hsel : selectTable c lut psiMod torque = .ok (v.1, v.2) := by
    simp only [selectTable, h1, h2, if_neg (not_lt.mpr ht), hi, one_mul]
    have e : lut.idq (idxAxis lut.tMin lut.tMax c.tCount torque) (idxAxis lut.psiMin lut.psiMax c.psiCount (min opt.psi psiMod))
        = v := hv.symm
    rw [e, if_neg (not_le.mpr hr1), if_neg (not_lt.mpr hr2), if_neg (not_lt.mpr hr1.le)]
  refine ⟨_, _, hsel, ?_⟩
  have htor : torqueOf c.mp v.1 v.2 = axis tMin tMax c.tCount (idxAxis tMin tMax c.tCount torque) := by
    rw [torqueOf_eq]
    have e : v = pmsmSolve c.mp (axis tMin tMax c.tCount (idxAxis tMin tMax c.tCount torque)) v.1 := by
      rw [hv]
      rfl
    have e2 := congrArg Prod.snd e
    simp only [pmsmSolve] at e2
    rw [e2]
    field_simp
  rw [htor]
  exact (c88_axis tMin tMax hT c.tCount hn torque).2.2

/-- C87, the limits of the direct current hold for the tables, too -/
theorem c87_table_range (c : Sync) (lut : Lut) (psiMod torque : ℝ) (opt f : Row)
    (h1 : at? c.mtpc (idxMtpc c.maxTorque c.tCount torque) = .ok opt)
    (h2 : at? c.mtpf (idxMtpf c.psiMaxMtpf c.psiCount (min opt.psi psiMod)) = .ok f) :
    ∃ x y, selectTable c lut psiMod torque = .ok (x, y) ∧ f.iD ≤ x ∧ x ≤ max opt.iD f.iD := by
  simp only [selectTable, h1, h2]
  generalize (if |f.t| < |torque| then sign torque * |f.t| else torque) = t
  generalize lut.idq (idxAxis lut.tMin lut.tMax c.tCount t) (idxAxis lut.psiMin lut.psiMax c.psiCount (min opt.psi psiMod)) = v
  by_cases h : v.1 ≤ f.iD
  · simp only [if_pos h, lt_irrefl, if_false]
    exact ⟨_, _, rfl, le_rfl, le_max_right _ _⟩
  · simp only [if_neg h]
    exact ⟨_, _, rfl, (cut_pair v (opt.iD, sign t * |opt.iQ|) (f.iD, sign t * |f.iQ|)).1⟩

end GEM.Props
