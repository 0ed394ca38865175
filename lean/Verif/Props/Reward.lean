import Mathlib.Algebra.BigOperators.Field
import Mathlib.Analysis.SpecificLimits.Basic
import Mathlib.Topology.Algebra.InfiniteSum.Order
import Mathlib.Tactic.FieldSimp
import Mathlib.Tactic.Linarith
import Mathlib.Tactic.NormNum
import Mathlib.Tactic.Ring
import Mathlib.Tactic.GCongr
import Verif.Spec.Reward
import Verif.Model.Env
import Verif.Props.Utils

/-!
# C45, C46, C77–C79: the weighted sum of errors
-/

set_option linter.unusedSectionVars false

namespace GEM.Props

open GEM GEM.Utils GEM.Reward

variable {N : Type} [DecidableEq N]

/-! ## What `set_modules` leaves behind -/

theorem setStateArray_length (lower : N → N) (names : List N) (a : Input N ℝ) (w : List ℝ)
    (h : setStateArray lower names a = .ok w) : w.length = names.length := by
  cases a with
  | dict d =>
    simp only [setStateArray, stateDictToStateArray] at h
    split at h
    · simp only [Except.ok.injEq] at h; subst h; simp
    · simp at h
  | ndarray a =>
    simp only [setStateArray] at h
    split at h
    · simp only [Except.ok.injEq] at h; subst h; assumption
    · simp at h
  | list a =>
    simp only [setStateArray] at h
    split at h
    · simp only [Except.ok.injEq] at h; subst h; assumption
    · simp at h
  | scalar x => simp only [setStateArray, Except.ok.injEq] at h; subst h; simp
  | other => simp [setStateArray] at h

theorem setStateArray_nonneg (lower : N → N) (names : List N) (a : Input N ℝ) (w : List ℝ)
    (h : setStateArray lower names a = .ok w) (hn : Nonneg a) : ∀ x ∈ w, 0 ≤ x := by
  cases a with
  | dict d =>
    simp only [setStateArray, stateDictToStateArray] at h
    split at h
    · simp only [Except.ok.injEq] at h
      subst h
      intro x hx
      obtain ⟨i, hi, rfl⟩ := List.mem_iff_getElem.1 hx
      simp only [List.getElem_zipWith, List.getElem_map]
      split
      · rename_i v hv
        have := lookup_some_mem hv
        obtain ⟨q, hq, hqe⟩ := List.mem_map.1 this
        simp only [Prod.mk.injEq] at hqe
        rw [← hqe.2]
        exact hn q hq
      · exact le_rfl
    · simp at h
  | ndarray a =>
    simp only [setStateArray] at h
    split at h
    · simp only [Except.ok.injEq] at h; subst h; exact hn
    · simp at h
  | list a =>
    simp only [setStateArray] at h
    split at h
    · simp only [Except.ok.injEq] at h; subst h; exact hn
    · simp at h
  | scalar x =>
    simp only [setStateArray, Except.ok.injEq] at h
    subst h
    intro y hy
    obtain ⟨_, _, rfl⟩ := List.mem_map.1 hy
    exact hn
  | other => simp [setStateArray] at h

theorem setStateArray_positive (lower : N → N) (names : List N) (a : Input N ℝ) (w : List ℝ)
    (h : setStateArray lower names a = .ok w) (hn : Positive a) : ∀ x ∈ w, 0 < x := by
  cases a with
  | dict d => exact hn.elim
  | ndarray a =>
    simp only [setStateArray] at h
    split at h
    · simp only [Except.ok.injEq] at h; subst h; exact hn
    · simp at h
  | list a =>
    simp only [setStateArray] at h
    split at h
    · simp only [Except.ok.injEq] at h; subst h; exact hn
    · simp at h
  | scalar x =>
    simp only [setStateArray, Except.ok.injEq] at h
    subst h
    intro y hy
    obtain ⟨_, _, rfl⟩ := List.mem_map.1 hy
    exact hn
  | other => simp [setStateArray] at h

/-- The effective weights: the given ones, normed if wanted. -/
theorem setModules_spec (lower : N → N) (m : Modules N) (weights : Option (Input N ℝ)) (normed : Bool)
    (violation : Option ℝ) (gamma : ℝ) (power : Input N ℝ) (bias : Bias) (o : Wse N)
    (h : setModules lower (Wse.init weights normed violation gamma power bias) m = .ok o) :
    ∃ n w v, setStateArray lower m.names power = .ok n ∧
      setStateArray lower m.names (weights.getD (defaultWeights m)) = .ok w ∧
      violationOf (Wse.init weights normed violation gamma power bias)
        (if normed then -1 + bias.value 1 else -w.sum + bias.value w.sum) = .ok v ∧
      o = ⟨.ndarray n, if normed then normWeights w else .arr w, some (List.zipWith (· - ·) m.high m.low), normed, gamma,
        .num (bias.value (if normed then 1 else w.sum)), some v,
        some (if normed then (-1 + bias.value 1, bias.value 1) else (-w.sum + bias.value w.sum, bias.value w.sum))⟩ := by
  simp only [setModules, Wse.init] at h
  split at h
  · simp at h
  · rename_i n hn
    split at h
    · simp at h
    · rename_i ws hws
      have hw : ∃ w, ws = some w ∧ setStateArray lower m.names (weights.getD (defaultWeights m)) = .ok w := by
        cases weights with
        | none =>
          simp only [weightArray] at hws
          cases hs : setStateArray lower m.names (defaultWeights m) with
          | error e => rw [hs] at hws; simp [Except.map] at hws
          | ok w => rw [hs] at hws; simp only [Except.map, Except.ok.injEq] at hws; exact ⟨w, hws.symm, hs⟩
        | some a =>
          simp only [weightArray] at hws
          cases hs : setStateArray lower m.names a with
          | error e => rw [hs] at hws; simp [Except.map] at hws
          | ok w => rw [hs] at hws; simp only [Except.map, Except.ok.injEq] at hws; exact ⟨w, hws.symm, hs⟩
      obtain ⟨w, rfl, hw⟩ := hw
      simp only [finish] at h
      cases normed with
      | true =>
        simp only [if_true] at h
        cases hv : violationOf (Wse.init weights true violation gamma power bias) (-1 + bias.value 1) with
        | error e =>
          simp only [violationOf, Wse.init] at hv h
          rw [hv] at h
          simp [Except.map] at h
        | ok v =>
          simp only [violationOf, Wse.init] at hv h
          rw [hv] at h
          simp only [Except.map, Except.ok.injEq] at h
          refine ⟨n, w, v, hn, hw, ?_, ?_⟩
          · simpa [violationOf, Wse.init] using hv
          · rw [← h]; simp
      | false =>
        simp only [Bool.false_eq_true, if_false] at h
        cases hv : violationOf (Wse.init weights false violation gamma power bias) (-w.sum + bias.value w.sum) with
        | error e =>
          simp only [violationOf, Wse.init] at hv h
          rw [hv] at h
          simp [Except.map] at h
        | ok v =>
          simp only [violationOf, Wse.init] at hv h
          rw [hv] at h
          simp only [Except.map, Except.ok.injEq] at h
          refine ⟨n, w, v, hn, hw, ?_, ?_⟩
          · simpa [violationOf, Wse.init] using hv
          · rw [← h]; simp

theorem terms_sum (k : ℕ) : ∀ (w n l s r : List ℝ), w.length = k → n.length = k → l.length = k → s.length = k →
    r.length = k → (terms w n l s r).sum =
      ∑ i ∈ Finset.range k, entry w i * (|entry s i - entry r i| / entry l i) ^ (entry n i) := by
  induction k with
  | zero =>
    intro w n l s r hw hn hl hs hr
    rw [List.length_eq_zero_iff] at hw
    subst hw
    simp [terms]
  | succ k ih =>
    intro w n l s r hw hn hl hs hr
    match w, n, l, s, r, hw, hn, hl, hs, hr with
    | a :: w, b :: n, c :: l, d :: s, e :: r, hw, hn, hl, hs, hr =>
      simp only [List.length_cons, Nat.add_right_cancel_iff] at hw hn hl hs hr
      rw [Finset.sum_range_succ']
      simp only [terms, List.sum_cons, ih w n l s r hw hn hl hs hr, term, entry, List.getD_cons_succ, List.getD_cons_zero]
      ring

theorem entry_zipWith_sub (a b : List ℝ) (h : a.length = b.length) (i : ℕ) :
    entry (List.zipWith (· - ·) a b) i = entry a i - entry b i := by
  unfold entry
  rw [List.getD_eq_getElem?_getD, List.getD_eq_getElem?_getD, List.getD_eq_getElem?_getD, List.getElem?_zipWith]
  by_cases hi : i < a.length
  · rw [List.getElem?_eq_getElem hi, List.getElem?_eq_getElem (h ▸ hi)]; simp
  · rw [List.getElem?_eq_none (by omega), List.getElem?_eq_none (by omega)]; simp

theorem sum_entry (w : List ℝ) : w.sum = ∑ i ∈ Finset.range w.length, entry w i := by
  induction w with
  | nil => simp
  | cons a w ih =>
    rw [List.length_cons, Finset.sum_range_succ', List.sum_cons, ih, add_comm]
    simp [entry]

theorem entry_map_div (w : List ℝ) (c : ℝ) (i : ℕ) : entry (w.map (· / c)) i = entry w i / c := by
  simp only [entry, List.getD_eq_getElem?_getD, List.getElem?_map]
  cases w[i]? <;> simp

theorem entry_mem {w : List ℝ} {i : ℕ} (h : i < w.length) : entry w i ∈ w := by
  simp only [entry, List.getD_eq_getElem?_getD, List.getElem?_eq_getElem h, Option.getD_some, List.getElem_mem]

/-- The error part of the reward for given effective weights and powers. -/
noncomputable def errorSum (m : Modules N) (w n s r : List ℝ) : ℝ :=
  ∑ i ∈ Finset.range m.names.length, entry w i * relError m s r i ^ entry n i

/-- Everything about the reward in one place. -/
theorem reward_spec (lower : N → N) (m : Modules N) (hm : Sound m) (weights : Option (Input N ℝ)) (normed : Bool)
    (violation : Option ℝ) (gamma : ℝ) (power : Input N ℝ) (bias : Bias) (o : Wse N)
    (h : setModules lower (Wse.init weights normed violation gamma power bias) m = .ok o) :
    ∃ n w v, setStateArray lower m.names power = .ok n ∧
      setStateArray lower m.names (weights.getD (defaultWeights m)) = .ok w ∧
      violationOf (Wse.init weights normed violation gamma power bias)
        (if normed then -1 + bias.value 1 else -w.sum + bias.value w.sum) = .ok v ∧
      (o.range = some (if normed then (-1 + bias.value 1, bias.value 1)
        else (-w.sum + bias.value w.sum, bias.value w.sum))) ∧
      ∀ s r, s.length = m.names.length → r.length = m.names.length → ∀ d, reward o s r d = .ok (mix d
        (if normed then (if w.sum = 0 then .nan else .fin (-(errorSum m w n s r / w.sum) + bias.value 1))
          else .fin (-errorSum m w n s r + bias.value w.sum)) v) := by
  obtain ⟨n, w, v, hn, hw, hv, rfl⟩ := setModules_spec lower m weights normed violation gamma power bias o h
  refine ⟨n, w, v, hn, hw, hv, rfl, ?_⟩
  intro s r hs hr d
  have ln := setStateArray_length lower m.names _ _ hn
  have lw := setStateArray_length lower m.names _ _ hw
  have hl : m.high.length = m.low.length := by rw [hm.high, hm.low]
  have ll : (List.zipWith (· - ·) m.high m.low).length = m.names.length := by simp [hm.high, hm.low]
  cases normed with
  | false =>
    simp only [reward, wse, Bool.false_eq_true, if_false]
    rw [if_pos ⟨by omega, by omega, by omega, by omega⟩]
    simp only [terms_sum m.names.length w n _ s r lw ln ll hs hr, entry_zipWith_sub _ _ hl]
    rfl
  | true =>
    simp only [reward, wse, if_true, normWeights]
    by_cases h0 : w.sum = 0
    · simp [h0]
    · simp only [if_neg h0]
      rw [if_pos ⟨by omega, by omega, by omega, by rw [List.length_map]; omega⟩]
      simp only [terms_sum m.names.length _ n _ s r (by simpa using lw : (w.map (· / w.sum)).length = m.names.length) ln ll
        hs hr, entry_zipWith_sub _ _ hl, entry_map_div]
      simp only [errorSum, relError, Finset.sum_div]
      simp only [div_mul_eq_mul_div]

theorem relError_bounds {m : Modules N} (hm : Sound m) {s r : List ℝ} (hs : InSpace m s) (hr : InSpace m r)
    {i : ℕ} (hi : i < m.names.length) : 0 ≤ relError m s r i ∧ relError m s r i ≤ 1 := by
  have hl := hm.range i hi
  have h1 := hs.2 i hi
  have h2 := hr.2 i hi
  refine ⟨div_nonneg (abs_nonneg _) (by linarith), ?_⟩
  rw [relError, div_le_one (by linarith), abs_le]
  constructor <;> linarith

theorem errorSum_bounds {m : Modules N} (hm : Sound m) {w n s r : List ℝ} (lw : w.length = m.names.length)
    (ln : n.length = m.names.length) (hw : ∀ x ∈ w, 0 ≤ x) (hn : ∀ x ∈ n, 0 ≤ x) (hs : InSpace m s) (hr : InSpace m r) :
    0 ≤ errorSum m w n s r ∧ errorSum m w n s r ≤ w.sum := by
  constructor
  · apply Finset.sum_nonneg
    intro i hi
    have hi := Finset.mem_range.1 hi
    exact mul_nonneg (hw _ (entry_mem (lw ▸ hi))) (Real.rpow_nonneg (relError_bounds hm hs hr hi).1 _)
  · rw [sum_entry, lw]
    apply Finset.sum_le_sum
    intro i hi
    have hi := Finset.mem_range.1 hi
    have hb := relError_bounds hm hs hr hi
    have : relError m s r i ^ entry n i ≤ 1 := Real.rpow_le_one hb.1 hb.2 (hn _ (entry_mem (ln ▸ hi)))
    have := hw _ (entry_mem (lw ▸ hi))
    nlinarith

theorem Positive.nonneg {a : Input N ℝ} (h : Positive a) : Nonneg a := by
  cases a with
  | dict d => exact h.elim
  | ndarray a => exact fun x hx => (h x hx).le
  | list a => exact fun x hx => (h x hx).le
  | scalar x => exact le_of_lt h
  | other => exact h

theorem uniformDict_nonneg (l : List N) : Nonneg (uniformDict l) := by
  intro p hp
  obtain ⟨n, _, rfl⟩ := List.mem_map.1 hp
  simp only; positivity

theorem default_nonneg (m : Modules N) : Nonneg (defaultWeights m) := by
  unfold defaultWeights; split <;> exact uniformDict_nonneg _

/-- The weights argument contains no negative number (`none`: the default). -/
def NonnegArg (weights : Option (Input N ℝ)) : Prop := ∀ a ∈ weights, Nonneg a

theorem getD_nonneg {weights : Option (Input N ℝ)} (m : Modules N) (h : NonnegArg weights) :
    Nonneg (weights.getD (defaultWeights m)) := by
  cases weights with
  | none => exact default_nonneg m
  | some a => exact h a rfl

theorem mix_zero {x v : Fl} {y : ℝ} (h : mix 0 x v = .fin y) : x = .fin y := by
  cases x <;> cases v <;> (simp [mix] at h ⊢; try assumption)

theorem sum_nonneg' {w : List ℝ} (h : ∀ x ∈ w, 0 ≤ x) : 0 ≤ w.sum := List.sum_nonneg h

theorem violationOf_none (weights : Option (Input N ℝ)) (normed : Bool) (gamma : ℝ) (power : Input N ℝ) (bias : Bias)
    (r : ℝ) : violationOf (Wse.init weights normed none gamma power bias) r = defaultViolation normed r gamma := rfl

theorem violationOf_some (weights : Option (Input N ℝ)) (normed : Bool) (y gamma : ℝ) (power : Input N ℝ) (bias : Bias)
    (r : ℝ) : violationOf (Wse.init weights normed (some y) gamma power bias) r = .ok (.fin y) := rfl

theorem defaultViolation_ok (normed : Bool) (r gamma : ℝ) (h : gamma ≠ 1) :
    defaultViolation normed r gamma = .ok (.fin (min (r / (1 - gamma)) 0)) := by
  rw [defaultViolation, if_neg (fun h' => h (by linarith))]

/-! ## C45 -/

/-- C45 (range): for non-negative weights and powers, states and references inside the state space and no violation, a
reward that is a number lies in `reward_range`; with normed weights this range has length 1. -/
theorem c45_range (lower : N → N) (m : Modules N) (hm : Sound m) (weights : Option (Input N ℝ)) (normed : Bool)
    (violation : Option ℝ) (gamma : ℝ) (power : Input N ℝ) (bias : Bias) (o : Wse N)
    (h : setModules lower (Wse.init weights normed violation gamma power bias) m = .ok o)
    (hw : NonnegArg weights) (hp : Nonneg power) (s r : List ℝ) (hs : InSpace m s) (hr : InSpace m r)
    (x : ℝ) (hx : reward o s r 0 = .ok (.fin x)) :
    ∃ lo hi, o.range = some (lo, hi) ∧ lo ≤ x ∧ x ≤ hi ∧ (normed = true → hi - lo = 1) := by
  obtain ⟨n, w, v, hn, hw', hv, hrange, hrew⟩ := reward_spec lower m hm weights normed violation gamma power bias o h
  have ln := setStateArray_length lower m.names _ _ hn
  have lw := setStateArray_length lower m.names _ _ hw'
  have pw := setStateArray_nonneg lower m.names _ _ hw' (getD_nonneg m hw)
  have pn := setStateArray_nonneg lower m.names _ _ hn hp
  obtain ⟨e1, e2⟩ := errorSum_bounds hm lw ln pw pn hs hr
  rw [hrew s r hs.1 hr.1] at hx
  simp only [Except.ok.injEq] at hx
  have hx := mix_zero hx
  cases normed with
  | false =>
    simp only [Bool.false_eq_true, if_false, Fl.fin.injEq] at hx hrange
    exact ⟨_, _, hrange, by linarith, by linarith, by simp⟩
  | true =>
    simp only [if_true] at hx hrange
    split at hx
    · simp at hx
    · rename_i h0
      simp only [Fl.fin.injEq] at hx
      have hpos : 0 < w.sum := lt_of_le_of_ne (sum_nonneg' pw) (Ne.symm h0)
      have q1 : 0 ≤ errorSum m w n s r / w.sum := div_nonneg e1 hpos.le
      have q2 : errorSum m w n s r / w.sum ≤ 1 := (div_le_one hpos).2 e2
      exact ⟨_, _, hrange, by linarith, by linarith, by intro _; ring⟩

/-- C45 (totality): the reward is a number for every state and reference of the right length, unless `gamma = 1` is used for
the default violation reward or weights that sum to zero are normed. -/
theorem c45_total (lower : N → N) (m : Modules N) (hm : Sound m) (weights : Option (Input N ℝ)) (normed : Bool)
    (violation : Option ℝ) (gamma : ℝ) (power : Input N ℝ) (bias : Bias) (o : Wse N)
    (h : setModules lower (Wse.init weights normed violation gamma power bias) m = .ok o)
    (hg : violation = none → gamma ≠ 1)
    (hz : normed = true → ∀ w, setStateArray lower m.names (weights.getD (defaultWeights m)) = .ok w → w.sum ≠ 0)
    (s r : List ℝ) (hs : s.length = m.names.length) (hr : r.length = m.names.length) (d : ℝ) :
    ∃ x, reward o s r d = .ok (.fin x) := by
  obtain ⟨n, w, v, hn, hw', hv, hrange, hrew⟩ := reward_spec lower m hm weights normed violation gamma power bias o h
  have hv : ∃ x, v = .fin x := by
    cases violation with
    | some y =>
      rw [violationOf_some, Except.ok.injEq] at hv
      exact ⟨y, hv.symm⟩
    | none =>
      rw [violationOf_none, defaultViolation_ok _ _ _ (hg rfl), Except.ok.injEq] at hv
      exact ⟨_, hv.symm⟩
  obtain ⟨y, rfl⟩ := hv
  rw [hrew s r hs hr]
  cases normed with
  | false => simp [mix]
  | true => simp [hz rfl w hw', mix]

/-- The value of the maximum: the second entry of `reward_range` is the bias. -/
theorem c45_formula (lower : N → N) (m : Modules N) (hm : Sound m) (a : Input N ℝ) (normed : Bool)
    (violation : Option ℝ) (gamma : ℝ) (power : Input N ℝ) (bias : Bias) (o : Wse N)
    (h : setModules lower (Wse.init (some a) normed violation gamma power bias) m = .ok o)
    (n w : List ℝ) (hn : setStateArray lower m.names power = .ok n) (hw : setStateArray lower m.names a = .ok w)
    (s r : List ℝ) (hs : s.length = m.names.length) (hr : r.length = m.names.length)
    (x : ℝ) (hx : reward o s r 0 = .ok (.fin x)) :
    ∃ lo hi, o.range = some (lo, hi) ∧
      x = hi - (∑ i ∈ Finset.range m.names.length, entry w i * relError m s r i ^ entry n i) /
        (if normed then w.sum else 1) := by
  obtain ⟨n', w', v, hn', hw', hv, hrange, hrew⟩ := reward_spec lower m hm (some a) normed violation gamma power bias o h
  rw [hn] at hn'; simp only [Except.ok.injEq] at hn'; subst hn'
  simp only [Option.getD_some] at hw'
  rw [hw] at hw'; simp only [Except.ok.injEq] at hw'; subst hw'
  rw [hrew s r hs hr] at hx
  simp only [Except.ok.injEq] at hx
  have hx := mix_zero hx
  cases normed with
  | false =>
    simp only [Bool.false_eq_true, if_false, Fl.fin.injEq] at hx hrange
    refine ⟨_, _, hrange, ?_⟩
    rw [← hx]; simp only [errorSum, Bool.false_eq_true, if_false]; ring
  | true =>
    simp only [if_true] at hx hrange
    split at hx
    · simp at hx
    · simp only [Fl.fin.injEq] at hx
      refine ⟨_, _, hrange, ?_⟩
      rw [← hx]; simp only [errorSum, if_true]; ring

theorem errorSum_zero {m : Modules N} (hm : Sound m) {w n s r : List ℝ} (lw : w.length = m.names.length)
    (ln : n.length = m.names.length) (hw : ∀ x ∈ w, 0 ≤ x) (hn : ∀ x ∈ n, 0 < x) :
    errorSum m w n s r = 0 ↔ ∀ i < m.names.length, entry w i ≠ 0 → entry s i = entry r i := by
  have hrel : ∀ i < m.names.length, 0 ≤ relError m s r i := fun i hi =>
    div_nonneg (abs_nonneg _) (by have := hm.range i hi; linarith)
  rw [errorSum, Finset.sum_eq_zero_iff_of_nonneg]
  · constructor
    · intro h i hi hne
      have := h i (Finset.mem_range.2 hi)
      rcases mul_eq_zero.1 this with h0 | h0
      · exact absurd h0 hne
      · rw [Real.rpow_eq_zero (hrel i hi) (hn _ (entry_mem (ln ▸ hi))).ne'] at h0
        have hd : entry m.high i - entry m.low i ≠ 0 := by have := hm.range i hi; linarith
        rw [relError, div_eq_zero_iff] at h0
        rcases h0 with h0 | h0
        · linarith [abs_eq_zero.1 h0]
        · exact absurd h0 hd
    · intro h i hi
      have hi := Finset.mem_range.1 hi
      by_cases hne : entry w i = 0
      · rw [hne, zero_mul]
      · rw [relError, h i hi hne, sub_self, abs_zero, zero_div,
          Real.zero_rpow (hn _ (entry_mem (ln ▸ hi))).ne', mul_zero]
  · intro i hi
    have hi := Finset.mem_range.1 hi
    exact mul_nonneg (hw _ (entry_mem (lw ▸ hi))) (Real.rpow_nonneg (hrel i hi) _)

theorem errorSum_full {m : Modules N} (hm : Sound m) {w n s r : List ℝ} (lw : w.length = m.names.length)
    (ln : n.length = m.names.length) (hw : ∀ x ∈ w, 0 ≤ x) (hn : ∀ x ∈ n, 0 < x) (hs : InSpace m s) (hr : InSpace m r) :
    errorSum m w n s r = w.sum ↔ ∀ i < m.names.length, entry w i ≠ 0 →
      |entry s i - entry r i| = entry m.high i - entry m.low i := by
  have hle : ∀ i ∈ Finset.range m.names.length, entry w i * relError m s r i ^ entry n i ≤ entry w i := by
    intro i hi
    have hi := Finset.mem_range.1 hi
    have hb := relError_bounds hm hs hr hi
    have : relError m s r i ^ entry n i ≤ 1 := Real.rpow_le_one hb.1 hb.2 (hn _ (entry_mem (ln ▸ hi))).le
    have := hw _ (entry_mem (lw ▸ hi))
    nlinarith
  rw [errorSum, sum_entry, lw, Finset.sum_eq_sum_iff_of_le hle]
  constructor
  · intro h i hi hne
    have h1 := h i (Finset.mem_range.2 hi)
    have h2 : relError m s r i ^ entry n i = 1 := by
      have : entry w i * relError m s r i ^ entry n i = entry w i * 1 := by rw [h1, mul_one]
      exact mul_left_cancel₀ hne this
    have hb := relError_bounds hm hs hr hi
    have h3 : relError m s r i = 1 := by
      by_contra hc
      have hlt : relError m s r i < 1 := lt_of_le_of_ne hb.2 hc
      have := Real.rpow_lt_one hb.1 hlt (hn _ (entry_mem (ln ▸ hi)))
      linarith
    have hd : entry m.high i - entry m.low i ≠ 0 := by have := hm.range i hi; linarith
    rwa [relError, div_eq_one_iff_eq hd] at h3
  · intro h i hi
    have hi := Finset.mem_range.1 hi
    by_cases hne : entry w i = 0
    · rw [hne, zero_mul]
    · have hd : entry m.high i - entry m.low i ≠ 0 := by have := hm.range i hi; linarith
      rw [relError, h i hi hne, div_self hd, Real.one_rpow, mul_one]

/-- C45 (the ends of the range): with positive powers the maximum of the range is reached exactly when every weighted state
equals its reference, and the minimum exactly when every weighted state is as far from its reference as its range allows. -/
theorem c45_ends (lower : N → N) (m : Modules N) (hm : Sound m) (a : Input N ℝ) (normed : Bool)
    (violation : Option ℝ) (gamma : ℝ) (power : Input N ℝ) (bias : Bias) (o : Wse N)
    (h : setModules lower (Wse.init (some a) normed violation gamma power bias) m = .ok o)
    (hwn : Nonneg a) (hp : Positive power) (w : List ℝ) (hw : setStateArray lower m.names a = .ok w)
    (s r : List ℝ) (hs : InSpace m s) (hr : InSpace m r) (x : ℝ) (hx : reward o s r 0 = .ok (.fin x)) :
    ∃ lo hi, o.range = some (lo, hi) ∧
      (x = hi ↔ ∀ i < m.names.length, entry w i ≠ 0 → entry s i = entry r i) ∧
      (x = lo ↔ ∀ i < m.names.length, entry w i ≠ 0 → |entry s i - entry r i| = entry m.high i - entry m.low i) := by
  obtain ⟨n, w', v, hn, hw', hv, hrange, hrew⟩ := reward_spec lower m hm (some a) normed violation gamma power bias o h
  simp only [Option.getD_some] at hw'
  rw [hw] at hw'; simp only [Except.ok.injEq] at hw'; subst hw'
  have ln := setStateArray_length lower m.names _ _ hn
  have lw := setStateArray_length lower m.names _ _ hw
  have pw := setStateArray_nonneg lower m.names _ _ hw hwn
  have pn := setStateArray_positive lower m.names _ _ hn hp
  rw [hrew s r hs.1 hr.1] at hx
  simp only [Except.ok.injEq] at hx
  have hx := mix_zero hx
  rw [← errorSum_zero hm lw ln pw pn, ← errorSum_full hm lw ln pw pn hs hr]
  cases normed with
  | false =>
    simp only [Bool.false_eq_true, if_false, Fl.fin.injEq] at hx hrange
    refine ⟨_, _, hrange, ?_, ?_⟩ <;> constructor <;> intro h <;> linarith
  | true =>
    simp only [if_true] at hx hrange
    split at hx
    · simp at hx
    · rename_i h0
      simp only [Fl.fin.injEq] at hx
      refine ⟨_, _, hrange, ?_, ?_⟩
      · constructor
        · intro h
          have : errorSum m w n s r / w.sum = 0 := by linarith
          exact (div_eq_zero_iff.1 this).resolve_right h0
        · intro h; rw [h, zero_div] at hx; linarith
      · constructor
        · intro h
          have : errorSum m w n s r / w.sum = 1 := by linarith
          rwa [div_eq_one_iff_eq h0] at this
        · intro h; rw [h, div_self h0] at hx; linarith

/-- Which states count by default: the referenced ones if there is one, else all. -/
def counted (m : Modules N) (i : ℕ) : Prop := m.referenced.getD i false = true ∨ ∀ b ∈ m.referenced, b = false

theorem uniformDict_entry (lower : N → N) (names l : List N) (hlow : ∀ n ∈ names, lower n = n) (hsub : ∀ n ∈ l, n ∈ names)
    (w : List ℝ) (h : setStateArray lower names (uniformDict l) = .ok w) (i : ℕ) (hi : i < names.length) :
    entry w i = if names[i] ∈ l then 1 / (l.length : ℝ) else 0 := by
  by_cases hm : names[i] ∈ l
  · rw [if_pos hm]
    have := c11_slot lower names _ w h (by
      intro p hp q hq he
      obtain ⟨a, ha, rfl⟩ := List.mem_map.1 hp
      obtain ⟨b, hb, rfl⟩ := List.mem_map.1 hq
      simp only [hlow _ (hsub a ha), hlow _ (hsub b hb)] at he
      rw [he]) i hi names[i] (1 / (l.length : ℝ)) (List.mem_map.2 ⟨_, hm, rfl⟩) (hlow _ (List.getElem_mem hi))
    simp only [entry, List.getD_eq_getElem?_getD, this, Option.getD_some]
  · rw [if_neg hm]
    have := c11_unnamed lower names _ w h i hi (by
      intro p hp he
      obtain ⟨a, ha, rfl⟩ := List.mem_map.1 hp
      simp only [hlow _ (hsub a ha)] at he
      exact hm (he ▸ ha))
    simp only [entry, List.getD_eq_getElem?_getD, this, Option.getD_some]

theorem selected_mem {names : List N} (hd : names.Nodup) {mask : List Bool} (hl : mask.length = names.length) (i : ℕ)
    (hi : i < names.length) : names[i] ∈ selected names mask ↔ mask.getD i false = true := by
  simp only [selected, List.mem_map, List.mem_filter]
  constructor
  · rintro ⟨⟨a, b⟩, ⟨hab, hb⟩, rfl⟩
    obtain ⟨j, hj, he⟩ := List.mem_iff_getElem.1 hab
    simp only [List.getElem_zip, Prod.mk.injEq] at he
    simp only [List.length_zip] at hj
    have : j = i := (List.Nodup.getElem_inj_iff hd).1 (by rw [he.1])
    subst this
    simp only [List.getD_eq_getElem?_getD, List.getElem?_eq_getElem (hl ▸ hi), Option.getD_some, he.2]
    exact hb
  · intro h
    refine ⟨(names[i], mask[i]'(hl ▸ hi)), ⟨?_, ?_⟩, rfl⟩
    · rw [List.mem_iff_getElem]
      exact ⟨i, by simp [hl, hi], by simp⟩
    · simpa only [List.getD_eq_getElem?_getD, List.getElem?_eq_getElem (hl ▸ hi), Option.getD_some] using h

theorem selected_length (names : List N) (mask : List Bool) (hl : mask.length = names.length) :
    (selected names mask).length = (mask.filter id).length := by
  induction names generalizing mask with
  | nil => cases mask <;> simp_all [selected]
  | cons a names ih =>
    cases mask with
    | nil => simp at hl
    | cons b mask =>
      have := ih mask (by simpa using hl)
      cases b <;> simp_all [selected]

/-- C45 (default weights): without weights the reward is the bias minus the mean, over the referenced states (over all
states if none is referenced), of the powers of the relative errors. -/
theorem c45_default (lower : N → N) (m : Modules N) (hm : Sound m) (hlow : ∀ n ∈ m.names, lower n = n)
    (hd : m.names.Nodup) (violation : Option ℝ) (gamma : ℝ) (p b : ℝ) (o : Wse N)
    (h : setModules lower (Wse.init none false violation gamma (.scalar p) (.num b)) m = .ok o)
    (s r : List ℝ) (hs : s.length = m.names.length) (hr : r.length = m.names.length)
    (x : ℝ) (hx : reward o s r 0 = .ok (.fin x)) :
    ((∃ c ∈ m.referenced, c = true) → x = b - (∑ i ∈ (Finset.range m.names.length).filter
        (fun i => m.referenced.getD i false = true), relError m s r i ^ p) / ((m.referenced.filter id).length : ℝ)) ∧
    ((∀ c ∈ m.referenced, c = false) → x = b - (∑ i ∈ Finset.range m.names.length, relError m s r i ^ p) /
        (m.names.length : ℝ)) := by
  obtain ⟨n, w, v, hn, hw, hv, hrange, hrew⟩ := reward_spec lower m hm none false violation gamma (.scalar p) (.num b) o h
  simp only [Option.getD_none] at hw
  rw [hrew s r hs hr] at hx
  simp only [Except.ok.injEq, Bool.false_eq_true, if_false] at hx
  have hx := mix_zero hx
  simp only [Fl.fin.injEq, Bias.value] at hx
  have hne : ∀ i < m.names.length, entry n i = p := by
    intro i hi
    simp only [setStateArray, Except.ok.injEq] at hn
    rw [← hn]
    simp [entry, hi]
  constructor
  · rintro ⟨c, hc, rfl⟩
    have hany : m.referenced.any id = true := by simp only [List.any_eq_true]; exact ⟨true, hc, rfl⟩
    simp only [defaultWeights, hany, if_true] at hw
    have hsub : ∀ y ∈ selected m.names m.referenced, y ∈ m.names := by
      intro y hy
      simp only [selected, List.mem_map, List.mem_filter] at hy
      obtain ⟨⟨a, b⟩, ⟨hab, _⟩, rfl⟩ := hy
      exact (List.of_mem_zip hab).1
    rw [← hx, errorSum, Finset.sum_congr rfl (g := fun i => if m.referenced.getD i false = true then
      relError m s r i ^ p / ((m.referenced.filter id).length : ℝ) else 0), ← Finset.sum_filter, ← Finset.sum_div]
    · ring
    · intro i hi
      have hi := Finset.mem_range.1 hi
      rw [uniformDict_entry lower m.names _ hlow hsub w hw i hi, hne i hi]
      simp only [selected_mem hd hm.referenced i hi, selected_length _ _ hm.referenced]
      split <;> ring
  · intro hall
    have hany : m.referenced.any id = false := by
      simp only [List.any_eq_false, id]; intro x hx; simp [hall x hx]
    simp only [defaultWeights, hany, Bool.false_eq_true, if_false] at hw
    rw [← hx, errorSum, Finset.sum_congr rfl (g := fun i => relError m s r i ^ p / (m.names.length : ℝ)), ← Finset.sum_div]
    · ring
    · intro i hi
      have hi := Finset.mem_range.1 hi
      rw [uniformDict_entry lower m.names _ hlow (fun _ h => h) w hw i hi, hne i hi, if_pos (List.getElem_mem hi)]
      ring

theorem mix_fin {d x : ℝ} {a : Fl} {v : ℝ} (h : mix d a (.fin v) = .fin x) :
    ∃ y, a = .fin y ∧ x = (1 - d) * y + d * v := by
  cases a with
  | fin y => simp only [mix, Fl.fin.injEq] at h; exact ⟨y, rfl, h.symm⟩
  | inf b => simp [mix] at h
  | nan => simp [mix] at h

/-- With the default violation reward: lower end `R` of the range, and the reward of every violation degree. -/
theorem default_spec (lower : N → N) (m : Modules N) (hm : Sound m) (weights : Option (Input N ℝ)) (normed : Bool)
    (gamma : ℝ) (hg : gamma < 1) (power : Input N ℝ) (bias : Bias) (o : Wse N)
    (h : setModules lower (Wse.init weights normed none gamma power bias) m = .ok o)
    (hw : NonnegArg weights) (hp : Nonneg power) :
    ∃ R hi, o.range = some (R, hi) ∧
      (∀ s r, InSpace m s → InSpace m r → ∀ x, reward o s r 0 = .ok (.fin x) → R ≤ x) ∧
      ∀ s r, s.length = m.names.length → r.length = m.names.length → ∀ d x, reward o s r d = .ok (.fin x) →
        ∃ y, reward o s r 0 = .ok (.fin y) ∧ x = (1 - d) * y + d * min (R / (1 - gamma)) 0 := by
  obtain ⟨n, w, v, hn, hw', hv, hrange, hrew⟩ := reward_spec lower m hm weights normed none gamma power bias o h
  rw [violationOf_none, defaultViolation_ok _ _ _ (by linarith), Except.ok.injEq] at hv
  subst hv
  have hfst : (if normed = true then (-1 + bias.value 1, bias.value 1)
      else (-w.sum + bias.value w.sum, bias.value w.sum)).1 =
      if normed = true then -1 + bias.value 1 else -w.sum + bias.value w.sum := by split <;> rfl
  refine ⟨if normed = true then -1 + bias.value 1 else -w.sum + bias.value w.sum,
    (if normed = true then (-1 + bias.value 1, bias.value 1)
      else (-w.sum + bias.value w.sum, bias.value w.sum)).2, ?_, ?_, ?_⟩
  · rw [hrange, ← hfst]
  · intro s r hs hr x hx
    obtain ⟨lo, hi, h1, h2, -, -⟩ := c45_range lower m hm weights normed none gamma power bias o h hw hp s r hs hr x hx
    rw [hrange, Option.some.injEq] at h1
    rw [← hfst, h1]
    exact h2
  · intro s r hs hr d x hx
    rw [hrew s r hs hr, Except.ok.injEq] at hx
    obtain ⟨y, hy, rfl⟩ := mix_fin hx
    refine ⟨y, ?_, rfl⟩
    rw [hrew s r hs hr, hy]
    simp [mix]

/-- C45 (bias `'positive'`): with default violation reward no reward is negative, whatever the violation degree. -/
theorem c45_positive (lower : N → N) (m : Modules N) (hm : Sound m) (weights : Option (Input N ℝ)) (normed : Bool)
    (gamma : ℝ) (hg : gamma < 1) (power : Input N ℝ) (o : Wse N)
    (h : setModules lower (Wse.init weights normed none gamma power .positive) m = .ok o)
    (hw : NonnegArg weights) (hp : Nonneg power) (s r : List ℝ) (hs : InSpace m s) (hr : InSpace m r)
    (d : ℝ) (hd : d ≤ 1) (x : ℝ) (hx : reward o s r d = .ok (.fin x)) :
    (∃ hi, o.range = some (0, hi)) ∧ 0 ≤ x := by
  obtain ⟨R, hi, h1, h2, h3⟩ := default_spec lower m hm weights normed gamma hg power .positive o h hw hp
  have hR : R = 0 := by
    obtain ⟨n, w, v, hn, hw', hv, hrange, hrew⟩ := reward_spec lower m hm weights normed none gamma power .positive o h
    rw [hrange] at h1
    cases normed <;> simp [Bias.value] at h1 <;> exact h1.1.symm
  subst hR
  obtain ⟨y, hy, rfl⟩ := h3 s r hs.1 hr.1 d x hx
  have := h2 s r hs hr y hy
  refine ⟨⟨hi, h1⟩, ?_⟩
  simp only [zero_div, min_self, mul_zero, add_zero]
  exact mul_nonneg (by linarith) this

/-! A system with two states, `omega ∈ [0, 1]` and `i ∈ [-1, 1]`, of which the current is referenced. -/

noncomputable def demoModules : Modules String := ⟨["omega", "i"], [0, -1], [1, 1], [false, true]⟩

theorem demo_sound : Sound demoModules := by
  refine ⟨rfl, rfl, rfl, ?_⟩
  intro i hi
  simp only [demoModules, List.length_cons, List.length_nil, zero_add, Nat.reduceAdd] at hi
  match i, hi with
  | 0, _ => norm_num [demoModules, entry]
  | 1, _ => norm_num [demoModules, entry]

theorem demo_inSpace (a b : ℝ) (ha : 0 ≤ a) (ha' : a ≤ 1) (hb : -1 ≤ b) (hb' : b ≤ 1) : InSpace demoModules [a, b] := by
  refine ⟨rfl, ?_⟩
  intro i hi
  simp only [demoModules, List.length_cons, List.length_nil, zero_add, Nat.reduceAdd] at hi
  match i, hi with
  | 0, _ => simp [demoModules, entry, ha, ha']
  | 1, _ => simp [demoModules, entry, hb, hb']

theorem demo_default (gamma : ℝ) (hg : gamma ≠ 1) (normed : Bool) :
    setModules id (Wse.init none normed none gamma (.scalar 1) (.num 0)) demoModules =
      .ok ⟨.ndarray [1, 1], .arr [0, 1], some [1, 2], normed, gamma, .num 0, some (.fin (min (-1 / (1 - gamma)) 0)),
        some (-1, 0)⟩ := by
  have h1 : (1 : ℝ) - -1 = 2 := by norm_num
  have h2 : weightArray id demoModules (.arg none) = .ok (some [0, 1]) := by
    simp [weightArray, defaultWeights, demoModules, uniformDict, selected, setStateArray, stateDictToStateArray, lookup,
      Except.map]
  have h3 : setStateArray id demoModules.names (.scalar 1) = .ok [(1 : ℝ), 1] := by
    simp [setStateArray, demoModules]
  simp only [setModules, Wse.init, h2, h3]
  cases normed <;>
  simp [finish, violationOf, defaultViolation_ok _ _ _ hg, Except.map, Bias.value, demoModules, h1, normWeights]

/-- half of the possible error in the current costs one half -/
example : reward (⟨.ndarray [1, 1], .arr [0, 1], some [1, 2], false, 0.9, .num 0,
    some (.fin (min (-1 / (1 - 0.9)) 0)), some (-1, 0)⟩ : Wse String) [1, 1] [0, 0] 0 = .ok (.fin (-(1 / 2))) := by
  norm_num [reward, wse, terms, term, mix]

/-- C45 (violated for violations): a full violation with the default violation reward is rewarded below the announced
range. -/
theorem c45_violation_violated : ∃ o : Wse String,
    setModules id (Wse.init none false none (9 / 10) (.scalar 1) (.num 0)) demoModules = .ok o ∧
    o.range = some (-1, 0) ∧ reward o [1, 1] [0, 0] 1 = .ok (.fin (-10)) := by
  refine ⟨_, demo_default (9 / 10) (by norm_num) false, rfl, ?_⟩
  norm_num [reward, wse, terms, term, mix]

/-! ## C46 -/

/-- C46 (hard constraints): with the default violation reward, whatever an agent that does not violate constraints collects
from now on — for ever, until a time limit, or until a later violation — its discounted return is at least the reward of
violating a constraint now. -/
theorem c46_return_partial (lower : N → N) (m : Modules N) (hm : Sound m) (weights : Option (Input N ℝ)) (normed : Bool)
    (gamma : ℝ) (hg0 : 0 ≤ gamma) (hg : gamma < 1) (power : Input N ℝ) (bias : Bias) (o : Wse N)
    (h : setModules lower (Wse.init weights normed none gamma power bias) m = .ok o)
    (hw : NonnegArg weights) (hp : Nonneg power)
    (s r : ℕ → List ℝ) (hs : ∀ k, InSpace m (s k)) (hr : ∀ k, InSpace m (r k)) (x : ℕ → ℝ)
    (hx : ∀ k, reward o (s k) (r k) 0 = .ok (.fin (x k)))
    (sv rv : List ℝ) (hsv : sv.length = m.names.length) (hrv : rv.length = m.names.length) (V : ℝ)
    (hV : reward o sv rv 1 = .ok (.fin V)) :
    (∀ T, V ≤ ∑ k ∈ Finset.range T, gamma ^ k * x k) ∧
    (∀ T, V ≤ ∑ k ∈ Finset.range T, gamma ^ k * x k + gamma ^ T * V) ∧
    Summable (fun k => gamma ^ k * x k) ∧ V ≤ ∑' k, gamma ^ k * x k := by
  obtain ⟨R, hi, h1, h2, h3⟩ := default_spec lower m hm weights normed gamma hg power bias o h hw hp
  obtain ⟨y, _, hVy⟩ := h3 sv rv hsv hrv 1 V hV
  have hVR : V = min (R / (1 - gamma)) 0 := by rw [hVy]; ring
  have hg1 : 0 < 1 - gamma := by linarith
  have hV0 : V ≤ 0 := by rw [hVR]; exact min_le_right _ _
  have hVR' : V * (1 - gamma) ≤ R := by
    have : V ≤ R / (1 - gamma) := by rw [hVR]; exact min_le_left _ _
    rwa [le_div_iff₀ hg1] at this
  have hxk : ∀ k, V * (1 - gamma) ≤ x k := fun k => hVR'.trans (h2 _ _ (hs k) (hr k) _ (hx k))
  have hxu : ∀ k, x k ≤ hi := by
    intro k
    obtain ⟨lo', hi', e1, -, e2, -⟩ := c45_range lower m hm weights normed none gamma power bias o h hw hp _ _ (hs k) (hr k) _
      (hx k)
    rw [h1, Option.some.injEq, Prod.mk.injEq] at e1
    rw [e1.2]; exact e2
  have key : ∀ T, V ≤ ∑ k ∈ Finset.range T, gamma ^ k * x k + gamma ^ T * V := by
    intro T
    induction T with
    | zero => simp
    | succ T ih =>
      rw [Finset.sum_range_succ, pow_succ]
      have hpow : 0 ≤ gamma ^ T := pow_nonneg hg0 T
      have := mul_le_mul_of_nonneg_left (hxk T) hpow
      nlinarith
  have key2 : ∀ T, V ≤ ∑ k ∈ Finset.range T, gamma ^ k * x k := by
    intro T
    have := key T
    have hpow : 0 ≤ gamma ^ T := pow_nonneg hg0 T
    nlinarith
  have hsum : Summable (fun k => gamma ^ k * x k) := by
    refine Summable.of_norm_bounded (g := fun k => gamma ^ k * (|V * (1 - gamma)| + |hi|))
      ((summable_geometric_of_lt_one hg0 hg).mul_right _) ?_
    intro k
    rw [norm_mul, Real.norm_eq_abs, Real.norm_eq_abs, abs_of_nonneg (pow_nonneg hg0 k)]
    apply mul_le_mul_of_nonneg_left _ (pow_nonneg hg0 k)
    rw [abs_le]
    have a1 := hxk k
    have a2 := hxu k
    have a3 := neg_abs_le (V * (1 - gamma))
    have a4 := le_abs_self hi
    have a5 := abs_nonneg hi
    have a6 := abs_nonneg (V * (1 - gamma))
    constructor <;> linarith
  refine ⟨key2, key, hsum, ?_⟩
  exact ge_of_tendsto' hsum.hasSum.tendsto_sum_nat key2

/-- C46 (monotonicity): with the default violation reward the reward does not increase with the violation degree. -/
theorem c46_monotone (lower : N → N) (m : Modules N) (hm : Sound m) (weights : Option (Input N ℝ)) (normed : Bool)
    (gamma : ℝ) (hg0 : 0 ≤ gamma) (hg : gamma < 1) (power : Input N ℝ) (bias : Bias) (o : Wse N)
    (h : setModules lower (Wse.init weights normed none gamma power bias) m = .ok o)
    (hw : NonnegArg weights) (hp : Nonneg power)
    (s r : List ℝ) (hs : InSpace m s) (hr : InSpace m r) (d d' : ℝ) (hd : d ≤ d') (x x' : ℝ)
    (hx : reward o s r d = .ok (.fin x)) (hx' : reward o s r d' = .ok (.fin x')) : x' ≤ x := by
  obtain ⟨R, hi, h1, h2, h3⟩ := default_spec lower m hm weights normed gamma hg power bias o h hw hp
  obtain ⟨y, hy, rfl⟩ := h3 s r hs.1 hr.1 d x hx
  obtain ⟨y', hy', rfl⟩ := h3 s r hs.1 hr.1 d' x' hx'
  rw [hy] at hy'
  simp only [Except.ok.injEq, Fl.fin.injEq] at hy'
  subst hy'
  have hR := h2 s r hs hr y hy
  have hg1 : 0 < 1 - gamma := by linarith
  have hle : min (R / (1 - gamma)) 0 ≤ y := by
    rcases le_total 0 R with h0 | h0
    · exact (min_le_right _ _).trans (h0.trans hR)
    · refine ((min_le_left _ _).trans ?_).trans hR
      rw [div_le_iff₀ hg1]
      nlinarith
  nlinarith

/-- a trajectory of the demo system whose current is off by half the range -/
example : ∃ o : Wse String, setModules id (Wse.init none false none (9 / 10) (.scalar 1) (.num 0)) demoModules = .ok o ∧
    InSpace demoModules [1, 1] ∧ InSpace demoModules [0, 0] ∧ reward o [1, 1] [0, 0] 0 = .ok (.fin (-(1 / 2))) ∧
    reward o [1, 1] [0, 0] (1 / 2) = .ok (.fin (-(21 / 4))) ∧ reward o [1, 1] [0, 0] 1 = .ok (.fin (-10)) := by
  refine ⟨_, demo_default (9 / 10) (by norm_num) false, demo_inSpace _ _ ?_ ?_ ?_ ?_, demo_inSpace _ _ ?_ ?_ ?_ ?_, ?_, ?_, ?_⟩
  all_goals norm_num [reward, wse, terms, term, mix]

/-- C46 (violated for soft constraints): an agent that stays for ever in a zone of violation degree 1/2 collects less than
one that violates the constraint fully at once, so violating pays. -/
theorem c46_soft_violated : ∃ (o : Wse String) (x V : ℝ),
    setModules id (Wse.init none false none (1 / 2) (.scalar 1) (.num 0)) demoModules = .ok o ∧
    InSpace demoModules [1, 1] ∧ InSpace demoModules [0, -1] ∧
    reward o [1, 1] [0, -1] (1 / 2) = .ok (.fin x) ∧ reward o [1, 1] [0, -1] 1 = .ok (.fin V) ∧
    ∑' k : ℕ, (1 / 2 : ℝ) ^ k * x < V := by
  refine ⟨_, -(3 / 2), -2, demo_default (1 / 2) (by norm_num) false, demo_inSpace _ _ ?_ ?_ ?_ ?_,
    demo_inSpace _ _ ?_ ?_ ?_ ?_, ?_, ?_, ?_⟩
  case refine_11 =>
    rw [tsum_mul_right, tsum_geometric_of_lt_one (by norm_num) (by norm_num)]
    norm_num
  all_goals norm_num [reward, wse, terms, term, mix]

/-! ## C77: using a reward function again -/

theorem sum_map_div (w : List ℝ) (c : ℝ) : (w.map (· / c)).sum = w.sum / c := by
  induction w with
  | nil => simp
  | cons a w ih => simp only [List.map_cons, List.sum_cons, ih]; ring

/-- C77 (same modules): calling `set_modules` again with the same modules changes nothing. -/
theorem c77_same_partial (lower : N → N) (m : Modules N) (weights : Option (Input N ℝ)) (normed : Bool)
    (violation : Option ℝ) (gamma : ℝ) (power : Input N ℝ) (bias : Bias) (o : Wse N)
    (h : setModules lower (Wse.init weights normed violation gamma power bias) m = .ok o) :
    setModules lower o m = .ok o := by
  obtain ⟨n, w, v, hn, hw, hv, rfl⟩ := setModules_spec lower m weights normed violation gamma power bias o h
  have ln := setStateArray_length lower m.names _ _ hn
  have lw := setStateArray_length lower m.names _ _ hw
  cases normed with
  | false =>
    simp only [Bool.false_eq_true, if_false, setModules, setStateArray, if_pos ln, weightArray, if_pos lw, Except.map,
      finish, violationOf, Bias.value]
  | true =>
    simp only [if_true, setModules, setStateArray, if_pos ln, normWeights]
    by_cases h0 : w.sum = 0
    · simp [h0, weightArray]
    · have e1 : (w.map (· / w.sum)).sum = 1 := by rw [sum_map_div, div_self h0]
      have e2 : ((w.map (· / w.sum)).map (· / (1 : ℝ))) = w.map (· / w.sum) := by simp
      have lw' : (w.map (· / w.sum)).length = m.names.length := by simpa using lw
      simp only [if_neg h0, weightArray, setStateArray, if_pos lw', Except.map, finish, if_true, violationOf, Bias.value,
        normWeights, e1, one_ne_zero, if_false, e2]

/-- C77 (violated): whatever is referenced in the second environment, the rewards of a reward function that was used before
do not depend on it. -/
theorem c77_reuse_violated (lower : N → N) (m m' : Modules N) (weights : Option (Input N ℝ)) (normed : Bool)
    (violation : Option ℝ) (gamma : ℝ) (power : Input N ℝ) (bias : Bias) (o : Wse N)
    (h : setModules lower (Wse.init weights normed violation gamma power bias) m = .ok o) (mask : List Bool) :
    setModules lower o m' = setModules lower o { m' with referenced := mask } := by
  obtain ⟨n, w, v, hn, hw, hv, rfl⟩ := setModules_spec lower m weights normed violation gamma power bias o h
  cases normed <;> simp only [setModules, normWeights, Bool.false_eq_true, if_false, if_true]
  · rfl
  · by_cases h0 : w.sum = 0
    · simp only [h0, if_true]; rfl
    · simp only [if_neg h0]; rfl

/-- C77 (violated, concrete): the speed is referenced in the second environment, the current in the first; the full error of
the speed costs nothing. -/
theorem c77_stale_violated : ∃ o o' : Wse String,
    setModules id (Wse.init none false none (9 / 10) (.scalar 1) (.num 0)) demoModules = .ok o ∧
    setModules id o { demoModules with referenced := [true, false] } = .ok o' ∧
    reward o' [1, 0] [0, 0] 0 = .ok (.fin 0) := by
  refine ⟨_, ⟨.ndarray [1, 1], .arr [0, 1], some [1, 2], false, 9 / 10, .num 0, some (.fin (min (-1 / (1 - 9 / 10)) 0)),
      some (-1, 0)⟩, demo_default (9 / 10) (by norm_num) false, ?_, ?_⟩
  · rw [← c77_reuse_violated id demoModules demoModules none false none (9 / 10) (.scalar 1) (.num 0) _
      (demo_default (9 / 10) (by norm_num) false) [true, false]]
    exact c77_same_partial id demoModules none false none (9 / 10) (.scalar 1) (.num 0) _
      (demo_default (9 / 10) (by norm_num) false)
  · norm_num [reward, wse, terms, term, mix]

/-! ## C79: gamma = 1 -/

/-- C79 (violated): with the documented value `gamma = 1` and normed weights `set_modules` raises a ZeroDivisionError for
every system. -/
theorem c79_normed_violated (lower : N → N) (m : Modules N) (weights : Option (Input N ℝ)) (power : Input N ℝ) (bias : Bias)
    (o : Wse N) : setModules lower (Wse.init weights true none 1 power bias) m ≠ .ok o := by
  intro h
  obtain ⟨n, w, v, hn, hw, hv, rfl⟩ := setModules_spec lower m weights true none 1 power bias o h
  simp [violationOf_none, defaultViolation] at hv

/-- C79 (violated): with `gamma = 1` and other weights no reward of a state without violation is a number, whenever the
lower end of the range is not positive. -/
theorem c79_nan_violated (lower : N → N) (m : Modules N) (hm : Sound m) (weights : Option (Input N ℝ)) (power : Input N ℝ)
    (bias : Bias) (o : Wse N) (h : setModules lower (Wse.init weights false none 1 power bias) m = .ok o)
    (lo hi : ℝ) (hr : o.range = some (lo, hi)) (hlo : lo ≤ 0) (s r : List ℝ) (hs : s.length = m.names.length)
    (hr' : r.length = m.names.length) : reward o s r 0 = .ok .nan := by
  obtain ⟨n, w, v, hn, hw', hv, hrange, hrew⟩ := reward_spec lower m hm weights false none 1 power bias o h
  rw [hr] at hrange
  simp only [Bool.false_eq_true, if_false, Option.some.injEq, Prod.mk.injEq] at hrange hv
  rw [violationOf_none, ← hrange.1] at hv
  simp only [defaultViolation, sub_self, if_true, Bool.false_eq_true, if_false, Except.ok.injEq, overZero] at hv
  rw [hrew s r hs hr']
  simp only [Bool.false_eq_true, if_false]
  rcases lt_or_eq_of_le hlo with h0 | h0
  · rw [if_pos h0] at hv; rw [← hv]; simp [mix]
  · rw [if_neg (by linarith), if_pos h0] at hv; rw [← hv]; simp [mix]

/-- C79, the part that holds: with `gamma = 1`, other weights and a range with negative lower end the reward of a full
violation is minus infinity. -/
theorem c79_full_partial (lower : N → N) (m : Modules N) (hm : Sound m) (weights : Option (Input N ℝ)) (power : Input N ℝ)
    (bias : Bias) (o : Wse N) (h : setModules lower (Wse.init weights false none 1 power bias) m = .ok o)
    (lo hi : ℝ) (hr : o.range = some (lo, hi)) (hlo : lo < 0) (s r : List ℝ) (hs : s.length = m.names.length)
    (hr' : r.length = m.names.length) : reward o s r 1 = .ok (.inf true) := by
  obtain ⟨n, w, v, hn, hw', hv, hrange, hrew⟩ := reward_spec lower m hm weights false none 1 power bias o h
  rw [hr] at hrange
  simp only [Bool.false_eq_true, if_false, Option.some.injEq, Prod.mk.injEq] at hrange hv
  rw [violationOf_none, ← hrange.1] at hv
  simp only [defaultViolation, sub_self, if_true, Bool.false_eq_true, if_false, Except.ok.injEq, overZero] at hv
  rw [hrew s r hs hr']
  simp only [Bool.false_eq_true, if_false]
  rw [if_pos hlo] at hv
  rw [← hv]
  simp [mix]

/-- the default weights with `gamma = 1` -/
example : ∃ o : Wse String, setModules id (Wse.init none false none 1 (.scalar 1) (.num 0)) demoModules = .ok o ∧
    o.range = some (-1, 0) := by
  have h1 : (1 : ℝ) - -1 = 2 := by norm_num
  have h2 : weightArray id demoModules (.arg none) = .ok (some [0, 1]) := by
    simp [weightArray, defaultWeights, demoModules, uniformDict, selected, setStateArray, stateDictToStateArray, lookup,
      Except.map]
  have h3 : setStateArray id demoModules.names (.scalar 1) = .ok [(1 : ℝ), 1] := by
    simp [setStateArray, demoModules]
  simp only [setModules, Wse.init, h2, h3]
  simp [finish, violationOf, defaultViolation, Except.map, Bias.value]

/-! ## C78: assigning a reward function to an environment -/

section Setter

open GEM.Core

variable {σ A O : Type}

/-- The environment uses a `WeightedSumOfErrors`, which is found in the common state by `get`; a reward that is no number is
left open. -/
def UsesWse (C : Comps σ A (List ℝ) (List ℝ) O ℝ) (get : σ → Wse N) : Prop :=
  ∀ c s r k a d, (∀ e, Reward.reward (get c) s r d = .error e → (C.reward c s r k a d).2 = .error e) ∧
    (∀ x, Reward.reward (get c) s r d = .ok (.fin x) → (C.reward c s r k a d).2 = .ok x)

/-- Nothing but the setter changes the reward function's attributes. -/
structure Keeps (C : Comps σ A (List ℝ) (List ℝ) O ℝ) (get : σ → Wse N) : Prop where
  seed : ∀ n c, get (C.seed n c) = get c
  psReset : ∀ c, get (C.psReset c).1 = get c
  refReset : ∀ c s, get (C.refReset c s).1 = get c
  rewReset : ∀ c s r, get (C.rewReset c s r) = get c
  simulate : ∀ c a, get (C.simulate c a).1 = get c
  getRef : ∀ c s, get (C.getRef c s).1 = get c
  check : ∀ c s, get (C.check c s).1 = get c
  onCb : ∀ i e c, get (C.onCb i e c) = get c

theorem fire_get {C : Comps σ A (List ℝ) (List ℝ) O ℝ} {get : σ → Wse N} (hk : Keeps C get)
    (env : Env σ A (List ℝ) (List ℝ) O ℝ) (e : CbEvent A (List ℝ) (List ℝ) ℝ) : get (env.fire C e).comp = get env.comp := by
  simp only [Env.fire]
  generalize List.range C.nCb = l
  generalize env.comp = c
  induction l generalizing c with
  | nil => rfl
  | cons i l ih => simp only [List.foldl_cons]; rw [ih, hk.onCb]

theorem reset_get {C : Comps σ A (List ℝ) (List ℝ) O ℝ} {get : σ → Wse N} (hk : Keeps C get)
    (env : Env σ A (List ℝ) (List ℝ) O ℝ) (n : ℕ) : get (env.reset C n).1.comp = get env.comp := by
  simp only [Env.reset, Env.call, Call.bind]
  split
  · split
    · rw [fire_get hk]
      simp only [hk.rewReset, hk.refReset, hk.psReset, fire_get hk, hk.seed]
    · simp only [hk.refReset, hk.psReset, fire_get hk, hk.seed]
  · simp only [hk.psReset, fire_get hk, hk.seed]

/-- C78 (violated): a new reward function is assigned to an environment and the environment is reset, as the documentation
demands; then no step returns: a step that gets as far as the reward raises a TypeError. -/
theorem c78_setter_violated (C : Comps σ A (List ℝ) (List ℝ) O ℝ) (get : σ → Wse N) (hC : UsesWse C get) (hk : Keeps C get)
    (weights : Option (Input N ℝ)) (normed : Bool) (violation : Option ℝ) (gamma : ℝ) (power : Input N ℝ) (bias : Bias)
    (f : σ → σ) (hf : ∀ c, get (f c) = Wse.init weights normed violation gamma power bias)
    (env : Env σ A (List ℝ) (List ℝ) O ℝ) (n : ℕ) (a : A) :
    ∃ out₁ out₂, (Core.run C env [.setReward f, .reset n, .step a]).2 =
        [(.setReward f, .none), (.reset n, out₁), (.step a, .step out₂)] ∧ (∀ r, out₂ ≠ .done r) ∧
      ((∀ c, ∃ s, (C.simulate c a).2 = .ok s) → (∀ c s, ∃ r, (C.getRef c s).2 = .ok r) →
        (∀ c s, ∃ d, (C.check c s).2 = .ok d) → (∃ o, out₁ = .resetOk o) → out₂ = .raised .type) := by
  refine ⟨_, _, rfl, ?_, ?_⟩
  all_goals
    simp only [Core.apply]
    generalize he : ({ env with comp := f env.comp, terminated := true } : Env σ A (List ℝ) (List ℝ) O ℝ) = env'
    have hg : get env'.comp = Wse.init weights normed violation gamma power bias := by rw [← he]; exact hf _
    have hg' := (reset_get hk env' n).trans hg
    have herr : ∀ s r d, Reward.reward (get (env'.reset C n).1.comp) s r d = .error .type := by
      intro s r d; rw [hg']; rfl
  · intro r
    simp only [Env.step]
    split
    · simp
    · simp only [Env.stepBody, Env.call, Call.bind]
      split
      · rename_i x hx
        split at hx
        · rename_i s _
          split at hx
          · rename_i ref _
            split at hx
            · rename_i d _
              split at hx
              · rename_i w hw
                have := fun k => (hC (C.check (C.getRef (C.simulate ((env'.reset C n).1.fire C
                  (.stepBegin (C.psK (env'.reset C n).1.comp) a)).comp a).1 s).1 s).1 s ref k a d).1 .type (by
                  rw [hk.check, hk.getRef, hk.simulate, fire_get hk]; exact herr s ref d)
                rw [this] at hw
                simp at hw
              · simp at hx
            · simp at hx
          · simp at hx
        · simp at hx
      · simp
  · intro h1 h2 h3 hok
    have ht : (env'.reset C n).1.terminated = false := by
      obtain ⟨o, ho⟩ := hok
      simp only [Env.reset, Env.call, Call.bind] at ho ⊢
      split
      · split
        · simp [Env.fire]
        · simp
      · simp
    simp only [Env.step, ht, Bool.false_eq_true, if_false, Env.stepBody, Env.call, Call.bind]
    obtain ⟨s, hs⟩ := h1 ((env'.reset C n).1.fire C (.stepBegin (C.psK (env'.reset C n).1.comp) a)).comp
    simp only [hs]
    obtain ⟨ref, href⟩ := h2 (C.simulate ((env'.reset C n).1.fire C (.stepBegin (C.psK (env'.reset C n).1.comp) a)).comp a).1 s
    simp only [href]
    obtain ⟨d, hd⟩ := h3 (C.getRef (C.simulate ((env'.reset C n).1.fire C
      (.stepBegin (C.psK (env'.reset C n).1.comp) a)).comp a).1 s).1 s
    simp only [hd]
    have := fun k => (hC (C.check (C.getRef (C.simulate ((env'.reset C n).1.fire C
      (.stepBegin (C.psK (env'.reset C n).1.comp) a)).comp a).1 s).1 s).1 s ref k a d).1 .type (by
      rw [hk.check, hk.getRef, hk.simulate, fire_get hk]; exact herr s ref d)
    simp only [this]

/-- C78: with `set_modules` called by hand before the assignment, every step that returns has the reward of the assigned
function for its state, reference and violation degree (an arbitrary one of the environment's checks). -/
theorem c78_prepared_partial (C : Comps σ A (List ℝ) (List ℝ) O ℝ) (get : σ → Wse N) (hC : UsesWse C get) (hk : Keeps C get)
    (o : Wse N) (ho : ∀ s r d, ∃ x, Reward.reward o s r d = .ok (.fin x) ∨ ∃ e, Reward.reward o s r d = .error e)
    (f : σ → σ) (hf : ∀ c, get (f c) = o) (env : Env σ A (List ℝ) (List ℝ) O ℝ) (n : ℕ) (a : A) :
    ∃ out₁ out₂, (Core.run C env [.setReward f, .reset n, .step a]).2 =
        [(.setReward f, .none), (.reset n, out₁), (.step a, .step out₂)] ∧
      ∀ r, out₂ = .done r → ∃ s ref d, r.obs.1 = C.observe s ∧ r.terminated = decide (1 ≤ d) ∧
        Reward.reward o s ref d = .ok (.fin r.reward) := by
  refine ⟨_, _, rfl, ?_⟩
  simp only [Core.apply]
  generalize he : ({ env with comp := f env.comp, terminated := true } : Env σ A (List ℝ) (List ℝ) O ℝ) = env'
  have hg : get env'.comp = o := by rw [← he]; exact hf _
  have hg' := (reset_get hk env' n).trans hg
  intro r
  simp only [Env.step]
  split
  · simp
  · simp only [Env.stepBody, Env.call, Call.bind]
    split
    · rename_i x hx
      intro hr
      simp only [Env.StepOut.done.injEq] at hr
      subst hr
      split at hx
      · rename_i s _
        split at hx
        · rename_i ref _
          split at hx
          · rename_i d _
            split at hx
            · rename_i w hw
              have hc := hC (C.check (C.getRef (C.simulate ((env'.reset C n).1.fire C
                  (.stepBegin (C.psK (env'.reset C n).1.comp) a)).comp a).1 s).1 s).1 s ref (C.psK (C.check (C.getRef
                  (C.simulate ((env'.reset C n).1.fire C
                  (.stepBegin (C.psK (env'.reset C n).1.comp) a)).comp a).1 s).1 s).1) a d
              rw [hk.check, hk.getRef, hk.simulate, fire_get hk, hg'] at hc
              split at hx
              · simp only [Except.ok.injEq] at hx
                subst hx
                refine ⟨s, ref, d, rfl, rfl, ?_⟩
                obtain ⟨y, hy | ⟨e, hy⟩⟩ := ho s ref d
                · have := hc.2 y hy
                  rw [this, Except.ok.injEq] at hw
                  rw [hy, hw]
                · have := hc.1 e hy
                  rw [this] at hw
                  simp at hw
              · simp at hx
            · simp at hx
          · simp at hx
        · simp at hx
      · simp at hx
    · simp

/-- An environment around the demo system: constant state, constant reference, no violation. -/
noncomputable def demoComps : Comps (Wse String) Unit (List ℝ) (List ℝ) (List ℝ) ℝ where
  seed _ c := c
  psReset c := (c, .ok [1, 1])
  refReset c _ := (c, .ok ([0, 0], [0]))
  rewReset c _ _ := c
  psK _ := 0
  simulate c _ := (c, .ok [1, 1])
  getRef c _ := (c, .ok [0, 0])
  check c _ := (c, .ok 0)
  reward c s r _ _ d := (c, match Reward.reward c s r d with
    | .ok (.fin x) => .ok x
    | .ok _ => .ok 0
    | .error e => .error e)
  refObs c _ := (c, .ok [0])
  observe s := s
  nCb := 1
  onCb _ _ c := c

example : UsesWse demoComps (id : Wse String → Wse String) ∧ Keeps demoComps (id : Wse String → Wse String) := by
  refine ⟨?_, ?_⟩
  · intro c s r k a d
    constructor
    · intro e he
      simp only [demoComps, id] at he ⊢
      rw [he]
    · intro x hx
      simp only [demoComps, id] at hx ⊢
      rw [hx]
  · constructor <;> intros <;> rfl

end Setter

end GEM.Props
