import Verif.Model.EesmTable
import Verif.Props.FluxTable
import Verif.Props.Energy

/-!
# C113: tables of the externally excited synchronous motor
-/

set_option linter.unusedSectionVars false

namespace GEM.Props

open GEM GEM.Motor GEM.Ops

/-! ## Grids -/

theorem mem_linspace_zero {b x : ℝ} (hb : 0 ≤ b) {n : ℕ} (h : x ∈ linspace 0 b n) : 0 ≤ x ∧ x ≤ b := by
  obtain ⟨k, hk, rfl⟩ := List.mem_map.mp h
  have hkn : k < n := List.mem_range.mp hk
  rcases Nat.lt_or_ge 1 n with h1 | h1
  · have hn : (0 : ℝ) < n - 1 := by
      have : (1 : ℝ) < n := by exact_mod_cast h1
      linarith
    have hk' : (k : ℝ) ≤ n - 1 := by
      have : (k : ℝ) + 1 ≤ n := by exact_mod_cast hkn
      linarith
    constructor
    · positivity
    · have : (k : ℝ) * (b / (n - 1)) ≤ (n - 1) * (b / (n - 1)) := mul_le_mul_of_nonneg_right hk' (by positivity)
      rw [mul_div_cancel₀ _ hn.ne'] at this
      simpa using this
  · have : k = 0 := by omega
    subst this
    simpa using hb

theorem zero_mem_linspace (b : ℝ) {n : ℕ} (hn : 0 < n) : (0 : ℝ) ∈ linspace 0 b n :=
  List.mem_map.mpr ⟨0, List.mem_range.mpr hn, by simp⟩

theorem linspace_sorted {b : ℝ} (hb : 0 ≤ b) (n : ℕ) : (linspace 0 b n).Pairwise (· ≤ ·) := by
  rw [linspace, List.pairwise_map]
  refine List.pairwise_lt_range.imp_of_mem ?_
  intro i j hi hj hij
  have hjn : j < n := List.mem_range.mp hj
  have hn : (0 : ℝ) < n - 1 := by
    have : (1 : ℝ) < n := by exact_mod_cast (by omega : 1 < n)
    linarith
  have : (i : ℝ) ≤ j := by exact_mod_cast hij.le
  have := mul_le_mul_of_nonneg_right this (show 0 ≤ (b - 0) / ((n : ℝ) - 1) by rw [sub_zero]; positivity)
  linarith

theorem le_last_of_sorted {l : List ℝ} (h : l.Pairwise (· ≤ ·)) {a : ℝ} (ha : l.getLast? = some a) : ∀ x ∈ l, x ≤ a := by
  intro x hx
  obtain ⟨m, rfl⟩ := List.getLast?_eq_some_iff.mp ha
  rcases List.mem_append.mp hx with hx | hx
  · exact (List.pairwise_append.mp h).2.2 x hx a (by simp)
  · rw [List.mem_singleton.mp hx]

/-! ## Candidates -/

/-- A point of operation the search comes to: torque and flux of the grids, some excitation current of the grid. -/
def Searched (mp : EesmParams ℝ) (root : List ℝ → Option ℝ) (c : ECfg) (r : ERow) : Prop :=
  r.t ∈ c.ts ∧ r.psi ∈ c.psis mp ∧ ∃ iE ∈ c.iEs, eCandidate mp root c.qLim r.t r.psi iE = some r

/-- What a row of the tables promises: currents within the limits that produce the torque of the row. -/
def RightRow (mp : EesmParams ℝ) (c : ECfg) (r : ERow) : Prop :=
  r.iD ^ 2 + r.iQ ^ 2 < c.qLim ^ 2 ∧ 0 ≤ r.iE ∧ r.iE ≤ c.iELim ∧ ∀ eps, eesmTorque mp ![r.iD, r.iQ, r.iE, eps] = r.t

theorem candidate_fields {mp : EesmParams ℝ} {root : List ℝ → Option ℝ} {q t psi iE : ℝ} {r : ERow}
    (h : eCandidate mp root q t psi iE = some r) : r.t = t ∧ r.psi = psi ∧ r.iE = iE := by
  unfold eCandidate at h
  split at h
  · split at h
    · cases h; exact ⟨rfl, rfl, rfl⟩
    · cases h
  · split at h
    · cases h
    · split at h
      · cases h
      · simp only at h
        split at h
        · cases h; exact ⟨rfl, rfl, rfl⟩
        · cases h

theorem mem_candidates {mp : EesmParams ℝ} {root : List ℝ → Option ℝ} {c : ECfg} {t psi : ℝ} {r : ERow} :
    r ∈ eCandidates mp root c t psi ↔ r.t = t ∧ r.psi = psi ∧ ∃ iE ∈ c.iEs, eCandidate mp root c.qLim r.t r.psi iE = some r := by
  rw [eCandidates, List.mem_filterMap]
  constructor
  · rintro ⟨iE, hi, h⟩
    obtain ⟨rfl, rfl, -⟩ := candidate_fields h
    exact ⟨rfl, rfl, iE, hi, h⟩
  · rintro ⟨rfl, rfl, iE, hi, h⟩
    exact ⟨iE, hi, h⟩

theorem searched_right (mp : EesmParams ℝ) (hp : mp.p ≠ 0) (hk : mp.k ≠ 0) (root : List ℝ → Option ℝ) (c : ECfg)
    (hE : 0 ≤ c.iELim) (r : ERow) (h : Searched mp root c r) : RightRow mp c r := by
  obtain ⟨-, -, iE, hi, h⟩ := h
  obtain ⟨-, -, rfl⟩ := candidate_fields h
  have hE2 := mem_linspace_zero hE hi
  unfold eCandidate at h
  split at h
  · rename_i h0
    split at h
    · rename_i hq
      have e := Option.some.inj h
      have eD : r.iD = 0 := by rw [← e]
      have eQ : r.iQ = 0 := by rw [← e]
      have hq' : 0 < c.qLim := by simpa using hq
      refine ⟨by rw [eD, eQ]; simpa using pow_pos hq' 2, hE2.1, hE2.2, fun eps => ?_⟩
      simp [eesmTorque, eD, eQ, h0.1]
    · cases h
  · split at h
    · cases h
    · rename_i h0 _ iD _
      split at h
      · cases h
      · rename_i hd
        simp only at h
        split at h
        · rename_i hq
          have e := Option.some.inj h
          have eD : r.iD = (eesmSolve mp r.t r.iE iD).1 := by rw [← e]
          have eQ : r.iQ = (eesmSolve mp r.t r.iE iD).2 := by rw [← e]
          have hd' : mp.lm * r.iE + (mp.ld - mp.lq) * iD ≠ 0 := fun h => hd (by rw [h, mul_zero])
          have hq0 : 0 ≤ c.qLim := (Real.sqrt_nonneg _).trans hq.le
          refine ⟨?_, hE2.1, hE2.2, fun eps => ?_⟩
          · rw [← eD, ← eQ] at hq
            have := (Real.sqrt_lt' (lt_of_le_of_lt (Real.sqrt_nonneg _) hq)).mp hq
            exact this
          · rw [eD, eQ]
            exact c54_torque_eesm mp hp hk r.t r.iE iD eps hd'
        · cases h

theorem best_spec (mp : EesmParams ℝ) (l : List ERow) :
    (∀ r, eBest mp l = some r → r ∈ l ∧ ∀ r' ∈ l, eLoss mp r ≤ eLoss mp r') ∧ (l ≠ [] → ∃ r, eBest mp l = some r) := by
  obtain ⟨h1, h2⟩ := firstMin_spec (eLoss mp) l
  constructor
  · intro r h
    rw [eBest, Option.map_eq_some_iff] at h
    obtain ⟨⟨k, a⟩, ha, rfl⟩ := h
    obtain ⟨h3, h4⟩ := h1 k a ha
    exact ⟨List.mem_of_getElem? h3, h4⟩
  · intro hl
    obtain ⟨v, hv⟩ := h2 hl
    exact ⟨v.2, by rw [eBest, hv]; rfl⟩

/-- the lists of which the tables take the best row -/
noncomputable def atTorque (mp : EesmParams ℝ) (root : List ℝ → Option ℝ) (c : ECfg) (t : ℝ) : List ERow :=
  (c.psis mp).flatMap fun psi => eCandidates mp root c t psi

theorem mem_atTorque {mp : EesmParams ℝ} {root : List ℝ → Option ℝ} {c : ECfg} {t : ℝ} {r : ERow} :
    r ∈ atTorque mp root c t ↔ r.t = t ∧ r.psi ∈ c.psis mp ∧ ∃ iE ∈ c.iEs, eCandidate mp root c.qLim r.t r.psi iE = some r := by
  rw [atTorque, List.mem_flatMap]
  constructor
  · rintro ⟨psi, hpsi, h⟩
    obtain ⟨h1, h2, h3⟩ := mem_candidates.mp h
    exact ⟨h1, h2 ▸ hpsi, h3⟩
  · rintro ⟨h1, h2, h3⟩
    exact ⟨r.psi, h2, mem_candidates.mpr ⟨h1, rfl, h3⟩⟩

theorem tables_unfold {mp : EesmParams ℝ} {root : List ℝ → Option ℝ} {c : ECfg} {T : ETables} (h : eTables mp root c = .ok T) :
    T.best = c.ts.filterMap (fun t => eBest mp (atTorque mp root c t)) ∧
    T.bestPsi = c.ts.flatMap (fun t => (c.psis mp).filterMap fun psi => eBest mp (eCandidates mp root c t psi)) ∧
    T.tMaxPsi = (c.psis mp).map (fun psi => ((c.ts.filter fun t => !(eCandidates mp root c t psi).isEmpty).getLast?).getD 0) ∧
    ∃ t0 l, T.best.map ERow.t = t0 :: l ∧ T.tMax = l.foldl max t0 := by
  unfold eTables at h
  split at h
  · cases h
  · simp only at h
    split at h
    · cases h
    · rename_i t0 l he
      cases h
      exact ⟨rfl, rfl, rfl, t0, l, he, rfl⟩

theorem mem_best {mp : EesmParams ℝ} {root : List ℝ → Option ℝ} {c : ECfg} {T : ETables} (h : eTables mp root c = .ok T) {r : ERow} :
    r ∈ T.best ↔ r.t ∈ c.ts ∧ eBest mp (atTorque mp root c r.t) = some r := by
  rw [(tables_unfold h).1, List.mem_filterMap]
  constructor
  · rintro ⟨t, ht, hr⟩
    have := (mem_atTorque.mp ((best_spec mp _).1 r hr).1).1
    rw [this]
    exact ⟨ht, hr⟩
  · rintro ⟨h1, h2⟩
    exact ⟨_, h1, h2⟩

theorem mem_bestPsi {mp : EesmParams ℝ} {root : List ℝ → Option ℝ} {c : ECfg} {T : ETables} (h : eTables mp root c = .ok T) {r : ERow} :
    r ∈ T.bestPsi ↔ r.t ∈ c.ts ∧ r.psi ∈ c.psis mp ∧ eBest mp (eCandidates mp root c r.t r.psi) = some r := by
  rw [(tables_unfold h).2.1, List.mem_flatMap]
  constructor
  · rintro ⟨t, ht, hr⟩
    obtain ⟨psi, hpsi, hr⟩ := List.mem_filterMap.mp hr
    obtain ⟨e1, e2, -⟩ := mem_candidates.mp ((best_spec mp _).1 r hr).1
    rw [e1, e2]
    exact ⟨ht, hpsi, hr⟩
  · rintro ⟨h1, h2, h3⟩
    exact ⟨_, h1, List.mem_filterMap.mpr ⟨_, h2, h3⟩⟩

/-! ## C113 -/

/-- C113.  Every row of both tables keeps the limits of the currents and produces its torque, whichever number `np.roots` returns. -/
theorem c113_rows (mp : EesmParams ℝ) (hp : mp.p ≠ 0) (hk : mp.k ≠ 0) (root : List ℝ → Option ℝ) (c : ECfg) (hE : 0 ≤ c.iELim)
    (T : ETables) (h : eTables mp root c = .ok T) : ∀ r, r ∈ T.best ∨ r ∈ T.bestPsi → RightRow mp c r ∧ Searched mp root c r := by
  intro r hr
  have hs : Searched mp root c r := by
    rcases hr with hr | hr
    · obtain ⟨h1, h2⟩ := (mem_best h).mp hr
      obtain ⟨-, h3, h4⟩ := mem_atTorque.mp ((best_spec mp _).1 r h2).1
      exact ⟨h1, h3, h4⟩
    · obtain ⟨h1, h2, h3⟩ := (mem_bestPsi h).mp hr
      exact ⟨h1, h2, (mem_candidates.mp ((best_spec mp _).1 r h3).1).2.2⟩
  exact ⟨searched_right mp hp hk root c hE r hs, hs⟩

/-- C113.  No point of the search with the same torque (and flux) has a smaller loss in the sense of the code than the row of the
table, and every torque (and flux) with a point has a row. -/
theorem c113_best_partial (mp : EesmParams ℝ) (root : List ℝ → Option ℝ) (c : ECfg) (T : ETables) (h : eTables mp root c = .ok T)
    (r' : ERow) (hr' : Searched mp root c r') :
    (∃ r ∈ T.best, r.t = r'.t) ∧ (∃ r ∈ T.bestPsi, r.t = r'.t ∧ r.psi = r'.psi) ∧
    (∀ r ∈ T.best, r.t = r'.t → eLoss mp r ≤ eLoss mp r') ∧
    ∀ r ∈ T.bestPsi, r.t = r'.t → r.psi = r'.psi → eLoss mp r ≤ eLoss mp r' := by
  obtain ⟨h1, h2, h3⟩ := hr'
  have m1 : r' ∈ atTorque mp root c r'.t := mem_atTorque.mpr ⟨rfl, h2, h3⟩
  have m2 : r' ∈ eCandidates mp root c r'.t r'.psi := mem_candidates.mpr ⟨rfl, rfl, h3⟩
  refine ⟨?_, ?_, fun r hr ht => ?_, fun r hr ht hpsi => ?_⟩
  · obtain ⟨r, hr⟩ := (best_spec mp _).2 (List.ne_nil_of_mem m1)
    have e := (mem_atTorque.mp ((best_spec mp _).1 r hr).1).1
    exact ⟨r, (mem_best h).mpr (by rw [e]; exact ⟨h1, hr⟩), e⟩
  · obtain ⟨r, hr⟩ := (best_spec mp _).2 (List.ne_nil_of_mem m2)
    obtain ⟨e1, e2, -⟩ := mem_candidates.mp ((best_spec mp _).1 r hr).1
    exact ⟨r, (mem_bestPsi h).mpr (by rw [e1, e2]; exact ⟨h1, h2, hr⟩), e1, e2⟩
  · refine ((best_spec mp _).1 r ((mem_best h).mp hr).2).2 r' ?_
    rw [ht]
    exact m1
  · refine ((best_spec mp _).1 r ((mem_bestPsi h).mp hr).2.2).2 r' ?_
    rw [ht, hpsi]
    exact m2

theorem foldMax_spec (l : List ℝ) (a : ℝ) : l.foldl max a ∈ a :: l ∧ ∀ x ∈ a :: l, x ≤ l.foldl max a := by
  induction l generalizing a with
  | nil => simp
  | cons b l ih =>
    obtain ⟨h1, h2⟩ := ih (max a b)
    simp only [List.foldl_cons]
    constructor
    · rcases List.mem_cons.mp h1 with h | h
      · rcases max_choice a b with e | e <;> rw [h, e] <;> simp
      · simp [h]
    · intro x hx
      have hm := h2 (max a b) (by simp)
      rcases List.mem_cons.mp hx with rfl | hx
      · exact (le_max_left _ _).trans hm
      · rcases List.mem_cons.mp hx with rfl | hx
        · exact (le_max_right _ _).trans hm
        · exact h2 x (by simp [hx])

/-- C113.  `t_max` is the largest torque of the grid for which a point was found, and entry `j` of `t_max_psi` the largest one for
which a point with the flux `j` was found. -/
theorem c113_largest (mp : EesmParams ℝ) (root : List ℝ → Option ℝ) (c : ECfg) (hT : 0 ≤ c.tLim) (hq : 0 < c.qLim)
    (hn : 0 < c.iECount) (hm : 0 < c.tCount) (T : ETables) (h : eTables mp root c = .ok T) :
    ((∃ r, Searched mp root c r ∧ r.t = T.tMax) ∧ ∀ r, Searched mp root c r → r.t ≤ T.tMax) ∧
    ∀ (j : ℕ) (psi : ℝ), (c.psis mp)[j]? = some psi → ∃ t, T.tMaxPsi[j]? = some t ∧
      (∃ r, Searched mp root c r ∧ r.psi = psi ∧ r.t = t) ∧ ∀ r, Searched mp root c r → r.psi = psi → r.t ≤ t := by
  obtain ⟨hb, -, hpsi, t0, l, he, hmax⟩ := tables_unfold h
  obtain ⟨f1, f2⟩ := foldMax_spec l t0
  rw [← he, ← hmax] at f1 f2
  refine ⟨⟨?_, fun r hr => ?_⟩, fun j psi hj => ?_⟩
  · obtain ⟨r, hr, e⟩ := List.mem_map.mp f1
    obtain ⟨h1, h2⟩ := (mem_best h).mp hr
    obtain ⟨-, h3, h4⟩ := mem_atTorque.mp ((best_spec mp _).1 r h2).1
    exact ⟨r, ⟨h1, h3, h4⟩, e⟩
  · obtain ⟨⟨r2, hr2, e⟩, -⟩ := c113_best_partial mp root c T h r hr
    rw [← e]
    exact f2 _ (List.mem_map.mpr ⟨r2, hr2, rfl⟩)
  · have hps : psi ∈ c.psis mp := List.mem_of_getElem? hj
    set ok := c.ts.filter fun t => !(eCandidates mp root c t psi).isEmpty with hok
    have mem_ok : ∀ t, t ∈ ok ↔ t ∈ c.ts ∧ ∃ r, r ∈ eCandidates mp root c t psi := by
      intro t
      rw [hok, List.mem_filter]
      simp [List.eq_nil_iff_forall_not_mem]
    -- the point without currents
    have h0 : (0 : ℝ) ∈ ok := by
      refine (mem_ok 0).mpr ⟨zero_mem_linspace _ hm, ⟨0, psi, 0, 0, 0⟩, ?_⟩
      refine mem_candidates.mpr ⟨rfl, rfl, 0, zero_mem_linspace _ hn, ?_⟩
      simp [eCandidate, hq]
    obtain ⟨t, ht⟩ : ∃ t, ok.getLast? = some t := by
      cases hl : ok.getLast? with
      | none => rw [List.getLast?_eq_none_iff.mp hl] at h0; cases h0
      | some t => exact ⟨t, rfl⟩
    have hs : ok.Pairwise (· ≤ ·) := (linspace_sorted hT c.tCount).filter _
    refine ⟨t, ?_, ?_, ?_⟩
    · rw [hpsi, List.getElem?_map, hj]
      simp only [Option.map_some]
      rw [← hok, ht]
      rfl
    · obtain ⟨h1, r, hr⟩ := (mem_ok t).mp (List.mem_of_getLast? ht)
      obtain ⟨e1, e2, e3⟩ := mem_candidates.mp hr
      exact ⟨r, ⟨e1 ▸ h1, e2 ▸ hps, e3⟩, e2, e1⟩
    · intro r hr e
      refine le_last_of_sorted hs ht r.t ((mem_ok _).mpr ⟨hr.1, r, mem_candidates.mpr ⟨rfl, e, ?_⟩⟩)
      exact hr.2.2

/-- C113.  When `np.roots` always finds a root, the tables can be made. -/
theorem c113_made (mp : EesmParams ℝ) (root : List ℝ → Option ℝ) (hroot : ∀ p, root p ≠ none) (c : ECfg) (hq : 0 < c.qLim)
    (hn : 0 < c.iECount) (hm : 0 < c.tCount) (hp : 0 < c.psiCount) : ∃ T, eTables mp root c = .ok T := by
  unfold eTables
  rw [if_neg (by rintro ⟨t, -, psi, -, iE, -, -, h⟩; exact hroot _ h)]
  simp only
  split
  · rename_i he
    exfalso
    have hr : (⟨0, 0, 0, 0, 0⟩ : ERow) ∈ atTorque mp root c 0 :=
      mem_atTorque.mpr ⟨rfl, zero_mem_linspace _ hp, 0, zero_mem_linspace _ hn, by simp [eCandidate, hq]⟩
    obtain ⟨r, hb⟩ := (best_spec mp _).2 (List.ne_nil_of_mem hr)
    have : r ∈ c.ts.filterMap (fun t => eBest mp (atTorque mp root c t)) :=
      List.mem_filterMap.mpr ⟨0, zero_mem_linspace _ hm, hb⟩
    have he' := List.map_eq_nil_iff.mp he
    change c.ts.filterMap (fun t => eBest mp (atTorque mp root c t)) = [] at he'
    rw [he'] at this
    cases this
  · exact ⟨_, rfl⟩

/-- C113 is violated by motors with equal inductances: `np.roots` has no root for a constant polynomial, which the search meets at
the excitation current 0, and the tables cannot be made. -/
theorem c113_round_rotor_violated (mp : EesmParams ℝ) (hl : mp.ld = mp.lq) (hlq : mp.lq ≠ 0) (hp : mp.p ≠ 0)
    (root : List ℝ → Option ℝ) (hroot : ∀ a : ℝ, a ≠ 0 → root [0, 0, 0, 0, a] = none) (c : ECfg) (hT : c.tLim ≠ 0)
    (hn : 0 < c.iECount) (hm : 2 ≤ c.tCount) (hps : 0 < c.psiCount) : eTables mp root c = .error .index := by
  unfold eTables
  rw [if_pos]
  have hn1 : ((c.tCount : ℝ) - 1) ≠ 0 := by
    have : (2 : ℝ) ≤ c.tCount := by exact_mod_cast hm
    intro h
    linarith
  have ht : c.tLim / (c.tCount - 1) ≠ 0 := div_ne_zero hT hn1
  refine ⟨c.tLim / (c.tCount - 1), List.mem_map.mpr ⟨1, List.mem_range.mpr (by omega), by simp⟩, 0, zero_mem_linspace _ hps, 0,
    zero_mem_linspace _ hn, fun h => ht h.1, ?_⟩
  have e : eesmPoly mp 0 0 (c.tLim / (c.tCount - 1)) = [0, 0, 0, 0, (mp.lq * (c.tLim / (c.tCount - 1)) / (3 * mp.p)) ^ 2] := by
    simp [eesmPoly, hl]
  rw [e]
  exact hroot _ (pow_ne_zero 2 (div_ne_zero (mul_ne_zero hlq ht) (mul_ne_zero three_ne_zero hp)))

/-- a number of pole pairs, inductances and limits that meet the hypotheses, and a `np.roots` for constants -/
example : eTables ⟨3, 1, 1, 2, 4, 1, 1, 1⟩ (fun p => if p.dropLast.all (· == 0) then none else some 0) ⟨10, 20, 30, 50, 100, 150⟩
    = .error .index :=
  c113_round_rotor_violated _ rfl (by norm_num) (by norm_num) _ (fun a _ => by simp) _ (by norm_num) (by norm_num) (by norm_num)
    (by norm_num)

/-- C113 is violated by the loss that is minimised: `|i_d| r_s + |i_q| r_s + |i_e| r_e` is not the loss of the motor.  Whenever
`r_s ≠ 3/2 r_e` there are, for every torque, two points of operation with this torque of which the code prefers the one with the
larger loss. -/
theorem c113_loss_violated (mp : EesmParams ℝ) (hs : 0 < mp.rs) (he : 0 < mp.re) (hne : mp.rs ≠ 3 / 2 * mp.re) (hp : 0 < mp.p)
    (hm : 0 < mp.lm) (hk : mp.k ≠ 0) (t : ℝ) (ht : 0 < t) (psi : ℝ) :
    ∃ a b : ERow, (∀ eps, eesmTorque mp ![a.iD, a.iQ, a.iE, eps] = t) ∧ (∀ eps, eesmTorque mp ![b.iD, b.iQ, b.iE, eps] = t) ∧
      a.t = t ∧ b.t = t ∧ a.psi = psi ∧ b.psi = psi ∧ eLoss mp a < eLoss mp b ∧
      ∀ eps, eesmLoss mp ![b.iD, b.iQ, b.iE, eps] < eesmLoss mp ![a.iD, a.iQ, a.iE, eps] := by
  -- `i_q i_e = g` on the points with `i_d = 0`
  obtain ⟨g, hg, hgt⟩ : ∃ g, 0 < g ∧ 3 / 2 * mp.p * mp.lm * g = t :=
    ⟨t / (3 / 2 * mp.p * mp.lm), by positivity, mul_div_cancel₀ _ (by positivity)⟩
  have htq : ∀ x, 0 < x → ∀ eps, eesmTorque mp ![0, x, g / x, eps] = t := by
    intro x hx eps
    rw [← hgt]
    simp [eesmTorque, EesmParams.lM, EesmParams.ik]
    field_simp
  -- the best point in the sense of the code and in the sense of the losses
  set x := √(mp.re * g / mp.rs) with hx
  set y := √√(mp.re * g ^ 2 / (3 / 2 * mp.rs)) with hy
  have hx0 : 0 < x := Real.sqrt_pos.mpr (by positivity)
  have hy0 : 0 < y := Real.sqrt_pos.mpr (Real.sqrt_pos.mpr (by positivity))
  have hx2 : x ^ 2 = mp.re * g / mp.rs := Real.sq_sqrt (by positivity)
  have hy4 : y ^ 4 = mp.re * g ^ 2 / (3 / 2 * mp.rs) := by
    have : y ^ 4 = (y ^ 2) ^ 2 := by ring
    rw [this, hy, Real.sq_sqrt (Real.sqrt_nonneg _), Real.sq_sqrt (by positivity)]
  have hxy : x ^ 2 ≠ y ^ 2 := by
    intro e
    have e4 : (x ^ 2) ^ 2 = y ^ 4 := by rw [e]; ring
    rw [hx2, hy4, div_pow, div_eq_div_iff (by positivity) (by positivity)] at e4
    apply hne
    have e5 : (mp.re * g ^ 2 * mp.rs) * (3 / 2 * mp.re) = (mp.re * g ^ 2 * mp.rs) * mp.rs := by linarith
    exact (mul_left_cancel₀ (by positivity) e5).symm
  refine ⟨⟨t, psi, 0, x, g / x⟩, ⟨t, psi, 0, y, g / y⟩, htq x hx0, htq y hy0, rfl, rfl, rfl, rfl, ?_, fun eps => ?_⟩
  · -- `r_s x = r_e g / x`
    have e1 : mp.rs * x ^ 2 = mp.re * g := by rw [hx2]; field_simp
    have hxy' : x ≠ y := fun e => hxy (by rw [e])
    simp only [eLoss, abs_zero, zero_mul, zero_add, abs_of_pos hx0, abs_of_pos hy0, abs_of_pos (div_pos hg hx0),
      abs_of_pos (div_pos hg hy0)]
    have e2 : y * mp.rs + g / y * mp.re - (x * mp.rs + g / x * mp.re) = mp.rs * (x - y) ^ 2 / y := by
      have e3 : g / x * mp.re = mp.rs * x := by
        rw [div_mul_eq_mul_div, div_eq_iff hx0.ne']
        linarith
      have e4 : g / y * mp.re = mp.rs * x ^ 2 / y := by rw [e1]; ring
      rw [e3, e4]
      field_simp
      ring
    have : 0 < mp.rs * (x - y) ^ 2 / y := div_pos (mul_pos hs (sq_pos_of_ne_zero (sub_ne_zero.mpr hxy'))) hy0
    linarith
  · have e1 : 3 / 2 * mp.rs * y ^ 4 = mp.re * g ^ 2 := by rw [hy4]; field_simp
    simp only [eesmLoss]
    simp
    have e2 : 3 / 2 * (mp.rs * x ^ 2) + mp.re * (g / x) ^ 2 - (3 / 2 * (mp.rs * y ^ 2) + mp.re * (g / y) ^ 2)
        = 3 / 2 * mp.rs * (x ^ 2 - y ^ 2) ^ 2 / x ^ 2 := by
      have e3 : mp.re * (g / x) ^ 2 = 3 / 2 * mp.rs * y ^ 4 / x ^ 2 := by rw [e1]; ring
      have e4 : mp.re * (g / y) ^ 2 = 3 / 2 * mp.rs * y ^ 2 := by
        have : mp.re * (g / y) ^ 2 = 3 / 2 * mp.rs * y ^ 4 / y ^ 2 := by rw [e1]; ring
        rw [this]
        field_simp
      rw [e3, e4]
      field_simp
      ring
    have : 0 < 3 / 2 * mp.rs * (x ^ 2 - y ^ 2) ^ 2 / x ^ 2 :=
      div_pos (mul_pos (by positivity) (sq_pos_of_ne_zero (sub_ne_zero.mpr hxy))) (by positivity)
    linarith

/-! ## Selection -/

/-- C113.  The entry that is read is the nearest to the torque and the flux that are looked for (both cut to the axes), and the
quadrature current has the sign of the torque reference. -/
theorem c113_lookup (s : ESelect) (hT : 0 < s.tMax) (hP : 0 < s.psiMax) (psiMod torque : ℝ) :
    ∃ k j : ℤ, 0 ≤ k ∧ k < 200 ∧ 0 ≤ j ∧ j < 200 ∧
      |axis 0 s.tMax 200 k - clip (s.point psiMod torque).1 0 s.tMax| ≤ s.tMax / 199 / 2 ∧
      |axis 0 s.psiMax 200 j - clip (s.point psiMod torque).2 0 s.psiMax| ≤ s.psiMax / 199 / 2 ∧
      s.select psiMod torque = ((s.table k j).1, sign torque * (s.table k j).2.1, (s.table k j).2.2) := by
  obtain ⟨a1, a2, a3⟩ := c88_axis 0 s.tMax hT 200 (by norm_num) (s.point psiMod torque).1
  obtain ⟨b1, b2, b3⟩ := c88_axis 0 s.psiMax hP 200 (by norm_num) (s.point psiMod torque).2
  refine ⟨_, _, a1, by exact_mod_cast a2, b1, by exact_mod_cast b2, ?_, ?_, rfl⟩
  · convert a3 using 2; push_cast; ring
  · convert b3 using 2; push_cast; ring

/-- C113 is violated above the speed at which the voltage limits the flux: the torque that is looked for depends on the flux of the
optimum and not on the flux that is allowed, so a torque for which the allowed flux has no point is looked for all the same. -/
theorem c113_weakening_violated (s : ESelect) (torque psiMod : ℝ) (ht : |torque| ≤ s.tMax)
    (hopt : |torque| ≤ s.tMaxPsi (s.psiOpt |torque|))
    (hlow : s.tMaxPsi (clip (s.psiOpt |torque|) 0 psiMod) < |torque|) :
    (s.point psiMod torque).1 = |torque| ∧ s.tMaxPsi (s.point psiMod torque).2 < (s.point psiMod torque).1 := by
  have hc : clip torque (-s.tMax) s.tMax = torque := by
    obtain ⟨h1, h2⟩ := abs_le.mp ht
    rw [clip, max_eq_left h1, min_eq_left h2]
  have h1 : (s.point psiMod torque).1 = |torque| := by
    simp only [ESelect.point, hc]
    rw [clip, max_eq_left (abs_nonneg _), min_eq_left hopt]
  refine ⟨h1, ?_⟩
  rw [h1]
  simpa only [ESelect.point, hc] using hlow

/-- a linear limit of the torque and a flux limit that is half of the optimum -/
example : ∃ s : ESelect, |(2 : ℝ)| ≤ s.tMax ∧ |(2 : ℝ)| ≤ s.tMaxPsi (s.psiOpt |2|) ∧ s.tMaxPsi (clip (s.psiOpt |2|) 0 1) < |(2 : ℝ)| :=
  ⟨⟨10, 10, fun t => t, fun p => p, fun _ _ => (0, 0, 0)⟩, by norm_num, by norm_num, by norm_num [clip]⟩

end GEM.Props
