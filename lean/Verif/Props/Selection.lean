import Verif.Props.OperatingPoint

/-!
# C51, C55, C56, C83, C88, C89: flux control, tables and limits of the operation point selection
-/

set_option linter.unusedSectionVars false

namespace GEM.Props

open GEM GEM.Ops GEM.Motor

/-! ## C55 -/

theorem clip_abs {x a : ℝ} (h : 0 ≤ a) : |clip x (-a) a| ≤ a := by
  rw [abs_le, clip]
  exact ⟨le_min (le_max_right _ _) (by linarith), min_le_right _ _⟩

/-- C55.  Both currents stay in their limits, and their length stays in the limit of the direct current. -/
theorem c55_current (c : Scim) (hd : 0 ≤ c.iSdLimit) (hq : 0 ≤ c.iSqLimit) (psi torque fluxOut : ℝ) :
    let i := scimCurrents c psi torque fluxOut
    i.1 ^ 2 + i.2 ^ 2 ≤ c.iSdLimit ^ 2 ∧ |i.1| ≤ c.iSdLimit ∧ |i.2| ≤ c.iSqLimit := by
  intro i
  set d := clip fluxOut (-c.iSdLimit) c.iSdLimit with hdd
  set q := clip (torque / max psi (1 / 1000) * 2 / 3 / c.mp.p * c.mp.lr / c.mp.lm) (-c.iSqLimit) c.iSqLimit with hqq
  have h1 : |d| ≤ c.iSdLimit := clip_abs hd
  have h2 : |q| ≤ c.iSqLimit := clip_abs hq
  have hi : i = (d, if c.iSdLimit < √(q ^ 2 + d ^ 2) then sign q * √(c.iSdLimit ^ 2 - d ^ 2) else q) := rfl
  have hd2 : d ^ 2 ≤ c.iSdLimit ^ 2 := by rw [← sq_abs]; exact pow_le_pow_left₀ (abs_nonneg _) h1 2
  have h0 : 0 ≤ q ^ 2 + d ^ 2 := by positivity
  split at hi
  · rename_i hlt
    have hlt2 : c.iSdLimit ^ 2 < q ^ 2 + d ^ 2 := by
      rw [← Real.sq_sqrt h0]
      exact pow_lt_pow_left₀ hlt hd two_ne_zero
    have hs : sign q ^ 2 = 1 := by
      rcases lt_trichotomy q 0 with h | h | h
      · rw [sign_neg h]; norm_num
      · rw [h] at hlt2
        nlinarith
      · rw [sign_pos h]; norm_num
    have e : (sign q * √(c.iSdLimit ^ 2 - d ^ 2)) ^ 2 = c.iSdLimit ^ 2 - d ^ 2 := by
      rw [mul_pow, hs, one_mul, Real.sq_sqrt (by linarith)]
    rw [hi]
    refine ⟨by simp only [e]; linarith, h1, ?_⟩
    refine le_trans (sq_le_sq.mp ?_) h2
    rw [e]
    linarith
  · rename_i hlt
    rw [hi]
    refine ⟨?_, h1, h2⟩
    have := pow_le_pow_left₀ (Real.sqrt_nonneg _) (not_lt.mp hlt) 2
    rw [Real.sq_sqrt h0] at this
    simp only
    linarith

/-- C55.  The flux the modulation controller allows is in its range around the flux of the speed, in every state the
controller can be in. -/
theorem c55_flux (c : ModPar) (h : c.psiLow ≤ c.psiHigh) (st : ModSt) (omega usd usq x : ℝ)
    (hx : (modulation c st omega usd usq).2 = .ok x) :
    psiAtSpeed c omega + c.psiLow ≤ x ∧ x ≤ psiAtSpeed c omega + c.psiHigh := by
  simp only [modulation] at hx
  split at hx
  · exact absurd hx (by simp)
  · split at hx
    · rename_i hd
      obtain rfl := Except.ok.inj hx
      exact ⟨by linarith [hd.1], by linarith [hd.2]⟩
    · obtain rfl := Except.ok.inj hx
      have h1 := le_min (le_max_right (c.iGain / (2 * max |omega| (1 / 10000) * c.p / c.uDc)
        * ((c.k * c.aMax - modulationOf c usd usq) * c.tau + ‹ℝ›)) c.psiLow) h
      have h2 := min_le_right (max (c.iGain / (2 * max |omega| (1 / 10000) * c.p / c.uDc)
        * ((c.k * c.aMax - modulationOf c usd usq) * c.tau + ‹ℝ›)) c.psiLow) c.psiHigh
      simp only [clip]
      exact ⟨by linarith, by linarith⟩

/-- C55 for the whole stage: whatever it returns in whatever state respects the limits. -/
theorem c55 (c : Scim) (hd : 0 ≤ c.iSdLimit) (hq : 0 ≤ c.iSqLimit) (st : ModSt × Flux) (psi omega usd usq torque x y : ℝ)
    (h : (scimSelect c st psi omega usd usq torque).2 = .ok (x, y)) :
    x ^ 2 + y ^ 2 ≤ c.iSdLimit ^ 2 ∧ |x| ≤ c.iSdLimit ∧ |y| ≤ c.iSqLimit := by
  have key : ∃ t o, scimCurrents c psi t o = (x, y) := by
    simp only [scimSelect] at h
    split at h
    · exact absurd h (by simp)
    · split at h
      · exact absurd h (by simp)
      · split at h
        · exact absurd h (by simp)
        · split at h
          · simp only [Flux.integrate] at h
            split at h
            · exact absurd h (by simp [Except.map])
            · exact ⟨_, _, Except.ok.inj h⟩
          · exact ⟨_, _, Except.ok.inj h⟩
  obtain ⟨t, o, e⟩ := key
  have := c55_current c hd hq psi t o
  rw [e] at this
  exact this

/-- currents beyond the limit 5 are shortened to (3, 4) -/
example :
    scimCurrents ⟨⟨1, 1, 1, 0, 1, 1⟩, 5, 5, 1, [], [], 1, 2, 2, ⟨1, 1, 1, 1, 1, 1, 0, 0, 0⟩⟩ 1 30 3 = (3, 4) := by
  have h : √((25 : ℝ) - 9) = 4 := by
    rw [show (25 : ℝ) - 9 = 4 ^ 2 by norm_num]; exact Real.sqrt_sq (by norm_num)
  have h2 : (5 : ℝ) < √(25 + 9) := by
    rw [show (5 : ℝ) = √(5 ^ 2) by rw [Real.sqrt_sq (by norm_num)]]
    exact Real.sqrt_lt_sqrt (by norm_num) (by norm_num)
  have h3 : clip (3 : ℝ) (-5) 5 = 3 := by norm_num [clip]
  have h4 : clip ((30 : ℝ) / max 1 (1 / 1000) * 2 / 3 / 1 * ImParams.lr ⟨1, 1, 1, 0, 1, 1⟩ / 1) (-5) 5 = 5 := by
    norm_num [clip, ImParams.lr]
  simp only [scimCurrents, h3, h4]
  norm_num
  rw [if_pos (by norm_num at h2; exact h2), sign_pos (by norm_num)]
  norm_num at h
  rw [h]
  norm_num

/-- C86 for the squirrel cage motor: inside the limits and with a flux of at least 1/1000 the current produces the torque (in
the frame of the rotor flux). -/
theorem c86_scim_partial (c : Scim) (hp : c.mp.p ≠ 0) (hm : c.mp.lm ≠ 0) (hr : c.mp.lr ≠ 0) (psi torque fluxOut eps : ℝ)
    (hpsi : 1 / 1000 ≤ psi)
    (h1 : |torque / psi * 2 / 3 / c.mp.p * c.mp.lr / c.mp.lm| ≤ c.iSqLimit)
    (h2 : √((torque / psi * 2 / 3 / c.mp.p * c.mp.lr / c.mp.lm) ^ 2 + clip fluxOut (-c.iSdLimit) c.iSdLimit ^ 2)
      ≤ c.iSdLimit) :
    let i := scimCurrents c psi torque fluxOut
    imTorque c.mp ![i.1, i.2, psi, 0, eps] = torque := by
  intro i
  have hpsi0 : psi ≠ 0 := by
    intro h
    rw [h] at hpsi
    norm_num at hpsi
  have e : clip (torque / max psi (1 / 1000) * 2 / 3 / c.mp.p * c.mp.lr / c.mp.lm) (-c.iSqLimit) c.iSqLimit
      = torque / psi * 2 / 3 / c.mp.p * c.mp.lr / c.mp.lm := by
    rw [max_eq_left hpsi, clip, max_eq_left (abs_le.mp h1).1, min_eq_left (abs_le.mp h1).2]
  have hi : i.2 = torque / psi * 2 / 3 / c.mp.p * c.mp.lr / c.mp.lm := by
    show (scimCurrents c psi torque fluxOut).2 = _
    simp only [scimCurrents]
    rw [e, if_neg (not_lt.mpr h2)]
  have hr' : c.mp.lm + c.mp.lsigr ≠ 0 := hr
  simp only [imTorque]
  simp
  rw [hi, ImParams.lr]
  field_simp

/-- C86 is violated with a flux below 1/1000: only a part of the torque is produced. -/
theorem c86_scim_violated (c : Scim) (hp : c.mp.p ≠ 0) (hm : c.mp.lm ≠ 0) (hr : c.mp.lr ≠ 0) (psi torque fluxOut eps : ℝ)
    (hpsi : psi ≤ 1 / 1000)
    (h1 : |torque / (1 / 1000) * 2 / 3 / c.mp.p * c.mp.lr / c.mp.lm| ≤ c.iSqLimit)
    (h2 : √((torque / (1 / 1000) * 2 / 3 / c.mp.p * c.mp.lr / c.mp.lm) ^ 2 + clip fluxOut (-c.iSdLimit) c.iSdLimit ^ 2)
      ≤ c.iSdLimit) :
    let i := scimCurrents c psi torque fluxOut
    imTorque c.mp ![i.1, i.2, psi, 0, eps] = 1000 * psi * torque := by
  intro i
  have e : clip (torque / max psi (1 / 1000) * 2 / 3 / c.mp.p * c.mp.lr / c.mp.lm) (-c.iSqLimit) c.iSqLimit
      = torque / (1 / 1000) * 2 / 3 / c.mp.p * c.mp.lr / c.mp.lm := by
    rw [max_eq_right hpsi, clip, max_eq_left (abs_le.mp h1).1, min_eq_left (abs_le.mp h1).2]
  have hi : i.2 = torque / (1 / 1000) * 2 / 3 / c.mp.p * c.mp.lr / c.mp.lm := by
    show (scimCurrents c psi torque fluxOut).2 = _
    simp only [scimCurrents]
    rw [e, if_neg (not_lt.mpr h2)]
  have hr' : c.mp.lm + c.mp.lsigr ≠ 0 := hr
  simp only [imTorque]
  simp
  rw [hi, ImParams.lr]
  field_simp

/-! ## C83 and C51: the modulation controller before and after a reset -/

/-- C83 is violated by the modulation controller: between the first `tune` and the first `reset` every call raises, unless the
modulation is far too high. -/
theorem c83_modulation_violated (c : ModPar) (lim : Bool) (omega usd usq : ℝ) (h : modulationOf c usd usq ≤ 11 / 10 * c.aMax) :
    (modulation c ⟨none, lim⟩ omega usd usq).2 = .error .type := by
  simp [modulation, not_lt.mpr h]

/-- C83, the part that holds: after a reset no call raises, and this stays so. -/
theorem c83_modulation_partial (c : ModPar) (st : ModSt) (h : st.integrated ≠ none) (omega usd usq : ℝ) :
    (∃ x, (modulation c st omega usd usq).2 = .ok x) ∧ (modulation c st omega usd usq).1.integrated ≠ none := by
  obtain ⟨x | x, lim⟩ := st
  · exact absurd rfl h
  · by_cases ha : 11 / 10 * c.aMax < modulationOf c usd usq
    · simp only [modulation, if_pos ha]
      split <;> exact ⟨⟨_, rfl⟩, by simp⟩
    · simp only [modulation, if_neg ha]
      split <;> exact ⟨⟨_, rfl⟩, by simp⟩

/-- Two states the calls cannot tell apart. -/
def ModSt.Same (c : ModPar) (a b : ModSt) : Prop :=
  a.integrated = b.integrated ∧ a.integrated ≠ none ∧ (a.limited = b.limited ∨ a.integrated = some c.resetValue)

theorem same_step (c : ModPar) (a b : ModSt) (h : ModSt.Same c a b) (omega usd usq : ℝ) :
    (modulation c a omega usd usq).2 = (modulation c b omega usd usq).2
      ∧ ModSt.Same c (modulation c a omega usd usq).1 (modulation c b omega usd usq).1 := by
  obtain ⟨x, la⟩ := a
  obtain ⟨y, lb⟩ := b
  obtain ⟨h1, h2, h3⟩ := h
  simp only at h1 h2 h3
  subst h1
  cases x with
  | none => exact absurd rfl h2
  | some x =>
    simp only [modulation]
    by_cases ha : 11 / 10 * c.aMax < modulationOf c usd usq
    · simp only [if_pos ha]
      split_ifs <;> exact ⟨rfl, by simp [ModSt.Same]⟩
    · simp only [if_neg ha]
      rcases h3 with h3 | h3
      · subst h3
        split_ifs <;> exact ⟨rfl, by simp [ModSt.Same]⟩
      · obtain rfl := Option.some.inj h3
        split_ifs <;> exact ⟨rfl, by simp [ModSt.Same]⟩

/-- the answers to a sequence of calls -/
noncomputable def modRun (c : ModPar) : ModSt → List (ℝ × ℝ × ℝ) → List (Except Err ℝ)
  | _, [] => []
  | st, u :: us => (modulation c st u.1 u.2.1 u.2.2).2 :: modRun c (modulation c st u.1 u.2.1 u.2.2).1 us

/-- C51 for the modulation controller: after a reset all answers are the same, whatever happened before (although the reset
keeps the mark that the last flux was limited). -/
theorem c51_modulation (c : ModPar) (a b : ModSt) (us : List (ℝ × ℝ × ℝ)) :
    modRun c (modReset c a) us = modRun c (modReset c b) us := by
  have key : ∀ us a b, ModSt.Same c a b → modRun c a us = modRun c b us := by
    intro us
    induction us with
    | nil => intros; rfl
    | cons u us ih =>
      intro a b h
      have hs := same_step c a b h u.1 u.2.1 u.2.2
      simp only [modRun, hs.1, ih _ _ hs.2]
  exact key us _ _ ⟨rfl, by simp [modReset], Or.inr rfl⟩

/-! ## C56 -/

/-- the torque of two currents in the steady state, where the rotor flux is `l_m i_sd` -/
noncomputable def scimTorque (mp : ImParams ℝ) (isd isq : ℝ) : ℝ := imTorque mp ![isd, isq, mp.lm * isd, 0, 0]

theorem scimTorque_eq (mp : ImParams ℝ) (isd isq : ℝ) :
    scimTorque mp isd isq = 3 / 2 * mp.p * mp.lm ^ 2 / mp.lr * isd * isq := by
  simp [scimTorque, imTorque, ImParams.lr]
  ring

/-- C56, the part that holds: the current the search finds, one position behind the one in the row, produces the torque with
the smallest losses of the samples. -/
theorem c56_partial (mp : ImParams ℝ) (hp : mp.p ≠ 0) (hm : mp.lm ≠ 0) (hr : mp.lr ≠ 0) (x0 : ℝ) (grid : List ℝ)
    (hg : grid ≠ []) (h0 : ∀ x ∈ grid, x ≠ 0) (t : ℝ) (ht : t ≠ 0) :
    ∃ r k x, psiOptRow mp (x0 :: grid) t = some r ∧ (x0 :: grid)[k]? = some r.iD ∧ (x0 :: grid)[k + 1]? = some x
      ∧ r.t = t ∧ r.psi = mp.lm * r.iD ∧ scimTorque mp x r.iQ = t
      ∧ ∀ x' ∈ grid, ∀ y', scimTorque mp x' y' = t → scimLosses mp x r.iQ ≤ scimLosses mp x' y' := by
  obtain ⟨⟨k, x⟩, hv⟩ := (firstMin_spec (fun x => scimLosses mp x (scimIsq mp t x)) grid).2 hg
  obtain ⟨h1, h2⟩ := (firstMin_spec (fun x => scimLosses mp x (scimIsq mp t x)) grid).1 k x hv
  have hx : x ∈ grid := List.mem_of_getElem? h1
  have hk : k < grid.length := by
    by_contra h
    rw [List.getElem?_eq_none (not_lt.mp h)] at h1
    exact absurd h1 (by simp)
  have hk2 : (x0 :: grid)[k]? = some ((x0 :: grid)[k]'(by simp; omega)) := List.getElem?_eq_getElem _
  refine ⟨⟨t, (x0 :: grid)[k]'(by simp; omega), scimIsq mp t x, mp.lm * (x0 :: grid)[k]'(by simp; omega)⟩, k, x, ?_, hk2, ?_,
    rfl, rfl, ?_, ?_⟩
  · rw [psiOptRow, if_neg ht, List.tail_cons, hv]
    simp only [hk2, Option.map_some]
  · simpa using h1
  · have := h0 x hx
    rw [scimTorque_eq, scimIsq]
    field_simp
  · intro x' hx' y' hy'
    have h3 := h0 x' hx'
    have e : y' = scimIsq mp t x' := by
      rw [← hy', scimTorque_eq, scimIsq]
      field_simp
    rw [e]
    exact h2 x' hx'

/-- C56 is violated on the grid of the code: the row with the k-th sample produces `k/(k+1)` of its torque. -/
theorem c56_violated (mp : ImParams ℝ) (hp : mp.p ≠ 0) (hm : mp.lm ≠ 0) (hr : mp.lr ≠ 0) (limit : ℝ) (hl : 0 < limit) (n : ℕ)
    (hn : 2 ≤ n) (t : ℝ) (ht : t ≠ 0) :
    ∃ r, ∃ k : ℕ, psiOptRow mp (linspace 0 limit n) t = some r ∧ r.iD = k * (limit / (n - 1)) ∧ k + 1 < n
      ∧ scimTorque mp r.iD r.iQ = k / (k + 1) * t ∧ scimTorque mp r.iD r.iQ ≠ t := by
  have hn1 : (0 : ℝ) < n - 1 := by
    have : (2 : ℝ) ≤ n := by exact_mod_cast hn
    linarith
  have hd : 0 < limit / ((n : ℝ) - 1) := div_pos hl hn1
  have hget : ∀ k, k < n → (linspace 0 limit n)[k]? = some (k * (limit / (n - 1))) := by
    intro k hk
    simp [linspace, hk]
  have hlen : (linspace 0 limit n).length = n := by simp [linspace]
  obtain ⟨x0, grid, hgr⟩ : ∃ x0 grid, linspace 0 limit n = x0 :: grid := by
    cases hc : linspace 0 limit n with
    | nil => rw [hc] at hlen; simp at hlen; omega
    | cons a l => exact ⟨a, l, rfl⟩
  have hlen' : grid.length = n - 1 := by
    rw [hgr] at hlen
    simp at hlen
    omega
  have hne : ∀ x ∈ grid, x ≠ 0 := by
    intro x hx
    obtain ⟨j, hj, rfl⟩ := List.mem_iff_getElem.mp hx
    have := hget (j + 1) (by omega)
    rw [hgr] at this
    simp only [List.getElem?_cons_succ, List.getElem?_eq_getElem hj, Option.some.injEq] at this
    rw [this]
    have : (0 : ℝ) < ((j + 1 : ℕ) : ℝ) := by exact_mod_cast Nat.succ_pos j
    positivity
  obtain ⟨r, k, x, h1, h2, h3, h4, h5, h6, h7⟩ := c56_partial mp hp hm hr x0 grid (by
    intro h
    rw [h] at hlen'
    simp at hlen'
    omega) hne t ht
  rw [← hgr] at h1 h2 h3
  have hk : k + 1 < n := by
    by_contra h
    rw [List.getElem?_eq_none (by omega)] at h3
    exact absurd h3 (by simp)
  have e1 : r.iD = k * (limit / (n - 1)) := by
    rw [hget k (by omega)] at h2
    exact (Option.some.inj h2).symm
  have e2 : x = (k + 1 : ℕ) * (limit / (n - 1)) := by
    rw [hget (k + 1) hk] at h3
    exact (Option.some.inj h3).symm
  have hk0 : (0 : ℝ) < k + 1 := by positivity
  have e3 : scimTorque mp r.iD r.iQ = k / (k + 1) * t := by
    rw [← h6, scimTorque_eq, scimTorque_eq, e1, e2]
    push_cast
    field_simp
  refine ⟨r, k, h1, e1, hk, e3, ?_⟩
  rw [e3]
  intro h
  have : (k / (k + 1) : ℝ) = 1 := mul_right_cancel₀ ht (by rw [h, one_mul])
  rw [div_eq_one_iff_eq hk0.ne'] at this
  linarith

/-! ## C88: the tables are read at the right place -/

theorem pyRound_near (x : ℝ) : |(pyRound x : ℝ) - x| ≤ 1 / 2 := by
  have h1 := Int.floor_le x
  have h2 := Int.lt_floor_add_one x
  rw [pyRound, abs_le]
  split_ifs <;> push_cast <;> constructor <;> linarith

theorem pyRound_mono_bounds {x : ℝ} {a b : ℤ} (h1 : (a : ℝ) ≤ x) (h2 : x ≤ b) : a ≤ pyRound x ∧ pyRound x ≤ b := by
  have hf : a ≤ ⌊x⌋ := Int.le_floor.mpr h1
  have h3 : ⌊x⌋ ≤ b := by exact_mod_cast (Int.floor_le x).trans h2
  have h4 : x - ⌊x⌋ ≠ 0 → ⌊x⌋ + 1 ≤ b := by
    intro h
    have : ⌊x⌋ < b := by
      rcases lt_or_eq_of_le h3 with h' | h'
      · exact h'
      · exact absurd (by rw [← h'] at h2; linarith [Int.floor_le x]) h
    omega
  rw [pyRound]
  split_ifs with c1 c2 c3
  · exact ⟨hf, h3⟩
  · exact ⟨by omega, h4 (by linarith)⟩
  · exact ⟨hf, h3⟩
  · exact ⟨by omega, h4 (by
      intro h
      rw [h] at c1
      norm_num at c1)⟩

theorem pyRound_int (k : ℤ) : pyRound k = k := by
  have := pyRound_mono_bounds (x := (k : ℝ)) (a := k) (b := k) le_rfl le_rfl
  omega

/-- C88.  MTPC table of a synchronous motor: for torques up to the largest one the row exists and its torque is the nearest of
the table, at most half a step away. -/
theorem c88_mtpc_partial (maxTorque : ℝ) (hm : 0 < maxTorque) (n : ℕ) (hn : 2 ≤ n) (torque : ℝ) (h : |torque| ≤ maxTorque) :
    ∃ x, at? (linspace (-maxTorque) maxTorque n) (idxMtpc maxTorque n torque) = .ok x
      ∧ |x - torque| ≤ maxTorque / (n - 1) := by
  obtain ⟨ha, hb⟩ := abs_le.mp h
  have hn1 : (0 : ℝ) < n - 1 := by
    have : (2 : ℝ) ≤ n := by exact_mod_cast hn
    linarith
  set z := (torque + maxTorque) / (2 * maxTorque) * ((n : ℝ) - 1) with hz
  have hz0 : 0 ≤ z := mul_nonneg (div_nonneg (by linarith) (by linarith)) hn1.le
  have hz1 : z ≤ ((n - 1 : ℤ) : ℝ) := by
    push_cast
    have : (torque + maxTorque) / (2 * maxTorque) ≤ 1 := by rw [div_le_one (by linarith)]; linarith
    calc z ≤ 1 * ((n : ℝ) - 1) := mul_le_mul_of_nonneg_right this hn1.le
      _ = n - 1 := one_mul _
  obtain ⟨h1, h2⟩ := pyRound_mono_bounds (a := 0) (by simpa using hz0) hz1
  have hidx : idxMtpc maxTorque n torque = pyRound z := by
    rw [idxMtpc, clip, max_eq_left h1, min_eq_left (by omega)]
  obtain ⟨k, hk⟩ := Int.eq_ofNat_of_zero_le h1
  have hkn : k < n := by omega
  refine ⟨-maxTorque + k * ((maxTorque - -maxTorque) / (n - 1)), ?_, ?_⟩
  · rw [hidx, hk, at?]
    simp [linspace, hkn]
  · have hr := pyRound_near z
    rw [hk] at hr
    have e : -maxTorque + k * ((maxTorque - -maxTorque) / ((n : ℝ) - 1)) - torque
        = (((k : ℤ) : ℝ) - z) * (2 * maxTorque / (n - 1)) := by
      rw [hz]
      push_cast
      field_simp
      ring
    rw [e, abs_mul, abs_of_pos (show 0 < 2 * maxTorque / ((n : ℝ) - 1) by positivity)]
    calc _ ≤ 1 / 2 * (2 * maxTorque / ((n : ℝ) - 1)) := mul_le_mul_of_nonneg_right (by simpa using hr) (by positivity)
      _ = _ := by ring

/-- C88 is violated for larger torques: the index is limited to the length of the table instead of the last index, the call
raises an IndexError. -/
theorem c88_mtpc_violated (maxTorque : ℝ) (hm : 0 < maxTorque) (n : ℕ) (hn : 2 ≤ n) (torque : ℝ)
    (h : maxTorque * (1 + 2 / (n - 1)) ≤ torque) (table : List Row) (hl : table.length = n) :
    at? table (idxMtpc maxTorque n torque) = .error .index := by
  have hn1 : (0 : ℝ) < n - 1 := by
    have : (2 : ℝ) ≤ n := by exact_mod_cast hn
    linarith
  set z := (torque + maxTorque) / (2 * maxTorque) * ((n : ℝ) - 1) with hz
  have hz1 : ((n : ℤ) : ℝ) ≤ z := by
    have e : ((n : ℤ) : ℝ) = (maxTorque * (1 + 2 / (n - 1)) + maxTorque) / (2 * maxTorque) * ((n : ℝ) - 1) := by
      push_cast
      field_simp
      ring
    rw [e, hz]
    gcongr
  have h1 := (pyRound_mono_bounds (b := ⌈z⌉) hz1 (Int.le_ceil z)).1
  have hidx : idxMtpc maxTorque n torque = n := by
    show clip (pyRound z) 0 (n : ℤ) = n
    rw [clip, max_eq_left (by omega), min_eq_right h1]
  rw [hidx, at?, Int.toNat_natCast, List.getElem?_eq_none (by omega)]

/-- torque 3 with the largest torque 1 and 2 rows -/
example : (1 : ℝ) * (1 + 2 / (((2 : ℕ) : ℝ) - 1)) ≤ 3 := by norm_num

/-- C88.  Table of the optimal flux of the squirrel cage motor: every torque, also beyond the limit, has a row, the nearest to
the torque cut to the limits. -/
theorem c88_psiOpt (tMax : ℝ) (hm : 0 < tMax) (n : ℕ) (hn : 2 ≤ n) (torque : ℝ) :
    ∃ x, at? (linspace (-tMax) tMax n) (idxPsiOpt tMax n torque) = .ok x
      ∧ |x - clip torque (-tMax) tMax| ≤ tMax / (n - 1) := by
  have hc := clip_abs (x := torque) hm.le
  obtain ⟨x, h1, h2⟩ := c88_mtpc_partial tMax hm n hn (clip torque (-tMax) tMax) hc
  refine ⟨x, ?_, h2⟩
  rw [← h1]
  congr 1
  obtain ⟨ha, hb⟩ := abs_le.mp hc
  have hn1 : (0 : ℝ) < n - 1 := by
    have : (2 : ℝ) ≤ n := by exact_mod_cast hn
    linarith
  rw [idxMtpc, idxPsiOpt]
  have e : (clip torque (-tMax) tMax - -tMax) / (tMax - -tMax) = (clip torque (-tMax) tMax + tMax) / (2 * tMax) := by
    congr 1 <;> ring
  rw [e]
  set z := (clip torque (-tMax) tMax + tMax) / (2 * tMax) * ((n : ℝ) - 1) with hz
  have hz0 : 0 ≤ z := mul_nonneg (div_nonneg (by linarith) (by linarith)) hn1.le
  have hz1 : z ≤ ((n - 1 : ℤ) : ℝ) := by
    push_cast
    have : (clip torque (-tMax) tMax + tMax) / (2 * tMax) ≤ 1 := by rw [div_le_one (by linarith)]; linarith
    calc z ≤ 1 * ((n : ℝ) - 1) := mul_le_mul_of_nonneg_right this hn1.le
      _ = n - 1 := one_mul _
  obtain ⟨h3, h4⟩ := pyRound_mono_bounds (a := 0) (by simpa using hz0) hz1
  show pyRound z = clip (pyRound z) 0 (n : ℤ)
  rw [clip, max_eq_left h3, min_eq_left (by omega)]

theorem idxTMax_eq (psiMax : ℝ) (hm : 0 < psiMax) (n : ℕ) (k : ℕ) (hk : k < n) (hn : 2 ≤ n) :
    idxTMax psiMax n (k * (psiMax / (n - 1))) = k := by
  have hn1 : (0 : ℝ) < n - 1 := by
    have : (2 : ℝ) ≤ n := by exact_mod_cast hn
    linarith
  have hk1 : (k : ℝ) ≤ n - 1 := by
    have : ((k + 1 : ℕ) : ℝ) ≤ n := by exact_mod_cast hk
    push_cast at this
    linarith
  have h1 : (k : ℝ) * (psiMax / (n - 1)) ≤ psiMax := by
    rw [← mul_div_assoc, div_le_iff₀ hn1, mul_comm]
    exact mul_le_mul_of_nonneg_left hk1 hm.le
  rw [idxTMax, clip, max_eq_left (by positivity), min_eq_left h1]
  have e : (k : ℝ) * (psiMax / (n - 1)) / psiMax * (n - 1) = ((k : ℤ) : ℝ) := by
    push_cast
    field_simp
  rw [e, pyRound_int]

/-- C88, the part that holds for the table of the largest torque: the row always exists. -/
theorem c88_tMax_partial (psiMax : ℝ) (hm : 0 < psiMax) (n : ℕ) (hn : 2 ≤ n) (psi : ℝ) :
    ∃ x, at? (tMaxFluxes psiMax n) (n - idxTMax psiMax n psi) = .ok x := by
  have hn1 : (0 : ℝ) < n - 1 := by
    have : (2 : ℝ) ≤ n := by exact_mod_cast hn
    linarith
  have h0 : 0 ≤ clip psi 0 psiMax := le_min (le_max_right _ _) hm.le
  have h1 : clip psi 0 psiMax ≤ psiMax := min_le_right _ _
  have hz0 : 0 ≤ clip psi 0 psiMax / psiMax * ((n : ℝ) - 1) := by positivity
  have hz1 : clip psi 0 psiMax / psiMax * ((n : ℝ) - 1) ≤ ((n - 1 : ℤ) : ℝ) := by
    push_cast
    calc _ ≤ 1 * ((n : ℝ) - 1) := mul_le_mul_of_nonneg_right ((div_le_one hm).mpr h1) hn1.le
      _ = n - 1 := one_mul _
  obtain ⟨h3, h4⟩ := pyRound_mono_bounds (a := 0) (by simpa using hz0) hz1
  rw [← idxTMax] at h3 h4
  have hlt : ((n : ℤ) - idxTMax psiMax n psi).toNat < (tMaxFluxes psiMax n).length := by
    simp [tMaxFluxes, linspace]
    omega
  exact ⟨_, by rw [at?, List.getElem?_eq_getElem hlt]⟩

/-- C88 is violated by the table of the largest torque: for every flux of the grid other than 0 the row of the next smaller
flux is read. -/
theorem c88_tMax_violated (psiMax : ℝ) (hm : 0 < psiMax) (n : ℕ) (hn : 2 ≤ n) (k : ℕ) (hk : k < n) (hk0 : 0 < k) :
    at? (tMaxFluxes psiMax n) (n - idxTMax psiMax n (k * (psiMax / (n - 1)))) = .ok ((k - 1 : ℕ) * (psiMax / (n - 1))) := by
  have hn1 : (0 : ℝ) < n - 1 := by
    have : (2 : ℝ) ≤ n := by exact_mod_cast hn
    linarith
  rw [idxTMax_eq psiMax hm n k hk hn, at?]
  have e : ((n : ℤ) - k).toNat = n - k := by omega
  have hl : (linspace psiMax 0 n).length = n := by simp [linspace]
  rw [e, tMaxFluxes, List.getElem?_append_left (by omega)]
  have : (linspace psiMax 0 n)[n - k]? = some (psiMax + ((n - k : ℕ) : ℝ) * ((0 - psiMax) / (n - 1))) := by
    have hlt : n - k < n := by omega
    simp [linspace, List.getElem?_range hlt]
  rw [this]
  simp only
  congr 1
  rw [Nat.cast_sub hk.le, Nat.cast_sub hk0]
  push_cast
  field_simp
  ring

/-! ## C89: independent stages -/

/-- C89, the part that holds: two stages with their own flux controllers do not influence each other: an operation on one
leaves the answers and the state of the other as they would have been. -/
theorem c89_partial (heap : ℕ → Flux) (s1 s2 : ScimStage) (h : s1.ref ≠ s2.ref) (o1 o2 : StageOp) :
    (s1.run (s2.run heap o2).1 o1).2 = (s1.run heap o1).2
      ∧ (s1.run (s2.run heap o2).1 o1).1 s1.ref = (s1.run heap o1).1 s1.ref := by
  have key : (s2.run heap o2).1 s1.ref = heap s1.ref := by
    cases o2 <;> simp [ScimStage.run, Function.update_of_ne h]
  generalize (s2.run heap o2).1 = heap' at key ⊢
  cases o1 <;> simp [ScimStage.run, key]

/-- C89 is violated by stages made with the default flux controller, which is one object for all of them: a reset of one stage
erases the integrator of the other, whose controller then answers differently. -/
theorem c89_reset_violated (heap : ℕ → Flux) (s1 s2 : ScimStage) (h : s1.ref = s2.ref) (x : ℝ) (hx : x ≠ 0)
    (hi : (heap s1.ref).iGain ≠ 0) (hf : (heap s1.ref).integrator = some x) (psi ref : ℝ) :
    ((s2.run heap .reset).1 s1.ref).out psi ref ≠ (heap s1.ref).out psi ref := by
  simp only [ScimStage.run, h, Function.update_self, scimReset]
  rw [← h]
  simp only [Flux.reset, Flux.out, hf, Option.getD_some, mul_zero, add_zero]
  intro h'
  have : (heap s1.ref).iGain * x = 0 := by linarith
  exact (mul_ne_zero hi hx) this

/-- C89 is violated by tuning: afterwards the first stage works with the gain of the motor of the second one. -/
theorem c89_tune_violated (heap : ℕ → Flux) (s1 s2 : ScimStage) (h : s1.ref = s2.ref) (tau : ℝ)
    (hm : (s1.c.mp.ls / s1.c.mp.rs) ^ 2 ≠ (s2.c.mp.ls / s2.c.mp.rs) ^ 2) :
    ((s2.run (s1.run heap (.tune tau)).1 (.tune tau)).1 s1.ref).pGain ≠ ((s1.run heap (.tune tau)).1 s1.ref).pGain := by
  simp only [ScimStage.run, h, Function.update_self, Flux.tune]
  intro e
  exact hm (by linarith)

/-- motors of this kind -/
example : ∃ (mp1 mp2 : ImParams ℝ), (mp1.ls / mp1.rs) ^ 2 ≠ (mp2.ls / mp2.rs) ^ 2 :=
  ⟨⟨1, 1, 0, 0, 1, 1⟩, ⟨1, 2, 0, 0, 1, 1⟩, by norm_num [ImParams.ls]⟩

end GEM.Props
