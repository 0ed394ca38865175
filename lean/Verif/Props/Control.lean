import Mathlib.Algebra.BigOperators.Field
import Mathlib.Algebra.BigOperators.Ring.Finset
import Mathlib.Algebra.Order.BigOperators.Ring.Finset
import Mathlib.Algebra.Order.Field.Rat
import Mathlib.Data.Fin.VecNotation
import Mathlib.Tactic.FieldSimp
import Mathlib.Tactic.Linarith
import Mathlib.Tactic.NormNum
import Mathlib.Tactic.Positivity
import Mathlib.Tactic.Ring
import Verif.Spec.Control

/-!
# C48–C52, C82–C84: clipping, current and speed control, base controllers, output stages
-/

set_option linter.unusedSectionVars false

namespace GEM.Props

open GEM GEM.Ctl

variable {K : Type} [Field K] [LinearOrder K] [IsStrictOrderedRing K] {n m k : ℕ}

/-! ## C48: clipping -/

theorem ctl_clip_mem {x lo hi : K} (h : lo ≤ hi) : lo ≤ clip x lo hi ∧ clip x lo hi ≤ hi := by
  unfold clip
  exact ⟨le_min (le_max_right _ _) h, min_le_right _ _⟩

theorem clip_eq {x lo hi : K} (h : lo ≤ hi) : clip x lo hi = x ↔ lo ≤ x ∧ x ≤ hi := by
  constructor
  · intro e
    rw [← e]
    exact ctl_clip_mem h
  · rintro ⟨h1, h2⟩
    unfold clip
    rw [max_eq_left h1, min_eq_left h2]

theorem clip_near {x lo hi y : K} (h1 : lo ≤ y) (h2 : y ≤ hi) : |x - clip x lo hi| ≤ |x - y| := by
  unfold clip
  rcases le_total x lo with h | h
  · rw [max_eq_right h, min_eq_left (h1.trans h2), abs_of_nonpos (by linarith), abs_of_nonpos (by linarith)]
    linarith
  · rw [max_eq_left h]
    rcases le_total x hi with h' | h'
    · rw [min_eq_left h']
      simp
    · rw [min_eq_right h', abs_of_nonneg (by linarith), abs_of_nonneg (by linarith)]
      linarith

/-- C48.  The absolute clipping stage returns a reference in its range, the one that is closest to the input in every
component; it is the input itself if that was in the range, and only then `clipped` is false for all components. -/
theorem c48_absolute (lo hi r : Fin n → K) (h : ∀ i, lo i ≤ hi i) (i : Fin n) :
    lo i ≤ (Clip.absolute lo hi).call r i ∧ (Clip.absolute lo hi).call r i ≤ hi i
    ∧ (∀ y, lo i ≤ y → y ≤ hi i → |r i - (Clip.absolute lo hi).call r i| ≤ |r i - y|)
    ∧ ((Clip.absolute lo hi).call r i = r i ↔ lo i ≤ r i ∧ r i ≤ hi i)
    ∧ ((Clip.absolute lo hi).difference r i = 0 ↔ lo i ≤ r i ∧ r i ≤ hi i) := by
  refine ⟨(ctl_clip_mem (h i)).1, (ctl_clip_mem (h i)).2, fun y => clip_near, clip_eq (h i), ?_⟩
  show r i - clip (r i) (lo i) (hi i) = 0 ↔ _
  rw [sub_eq_zero, eq_comm, clip_eq (h i)]

/-- C48.  The tuned range: the returned reference is in the part `1 - margin` of the range of the
quantity. -/
theorem c48_absolute_margin (limit low high r : Fin n → K) (margin : K) (hm1 : margin ≤ 1)
    (hl : ∀ i, 0 ≤ limit i) (hlow : ∀ i, low i ≤ 0) (hhigh : ∀ i, 0 ≤ high i) (i : Fin n) :
    (1 - margin) * (low i * limit i) ≤ (Clip.tuneAbsolute limit low high margin).call r i
    ∧ (Clip.tuneAbsolute limit low high margin).call r i ≤ (1 - margin) * (high i * limit i) := by
  have h0 : 0 ≤ limit i * (1 - margin) := mul_nonneg (hl i) (by linarith)
  have h := ctl_clip_mem (x := r i) (lo := low i * (limit i * (1 - margin))) (hi := high i * (limit i * (1 - margin)))
    ((mul_nonpos_of_nonpos_of_nonneg (hlow i) h0).trans (mul_nonneg (hhigh i) h0))
  constructor
  · calc _ = low i * (limit i * (1 - margin)) := by ring
      _ ≤ _ := h.1
  · calc (Clip.tuneAbsolute limit low high margin).call r i ≤ high i * (limit i * (1 - margin)) := h.2
      _ = _ := by ring

example : (Clip.tuneAbsolute ![100, 10] ![-1, 0] ![1, 1] (1 / 5)).call ![(-95 : ℚ), 7] = ![-80, 7] := by
  funext i
  fin_cases i <;> norm_num [Clip.tuneAbsolute, Clip.call, clip]

theorem shorten_eq (q margin x : K) : shorten q margin x = (if q < (1 - margin) ^ 2 then 1 else (1 - margin) / q) * x := by
  unfold shorten
  split
  · rw [one_mul]
  · rw [div_mul_eq_mul_div, div_mul_eq_mul_div, mul_comm]

theorem lengthSq_smul (limits v : Fin n → K) (c : K) : lengthSq limits (fun i => c * v i) = c ^ 2 * lengthSq limits v := by
  unfold lengthSq
  rw [Finset.mul_sum]
  refine Finset.sum_congr rfl fun i _ => ?_
  rw [mul_div_assoc, mul_pow]

theorem partLengthSq_smul (g : Fin n → Bool) (limits v : Fin n → K) (c : K) :
    partLengthSq g limits (fun i => c * v i) = c ^ 2 * partLengthSq g limits v := by
  unfold partLengthSq
  rw [Finset.mul_sum]
  refine Finset.sum_congr rfl fun i _ => ?_
  split
  · rw [mul_div_assoc, mul_pow]
  · rw [mul_zero]

theorem lengthSq_nonneg (limits v : Fin n → K) : 0 ≤ lengthSq limits v := Finset.sum_nonneg fun _ _ => sq_nonneg _

theorem partLengthSq_nonneg (g : Fin n → Bool) (limits v : Fin n → K) : 0 ≤ partLengthSq g limits v :=
  Finset.sum_nonneg fun _ _ => by split <;> positivity

theorem factor_sq {q margin : K} (hm : margin < 1) :
    (if q < (1 - margin) ^ 2 then 1 else (1 - margin) / q) ^ 2 * q
      = if q < (1 - margin) ^ 2 then q else (1 - margin) ^ 2 / q := by
  have h1 : 0 < (1 - margin) ^ 2 := pow_pos (by linarith) 2
  split
  · ring
  · next h =>
    have hq : 0 < q := h1.trans_le (not_lt.mp h)
    field_simp

theorem squared_call (limits r : Fin n → K) (margin : K) : (Clip.squared limits margin).call r
    = fun i => (if lengthSq limits r < (1 - margin) ^ 2 then 1 else (1 - margin) / lengthSq limits r) * r i := by
  funext i
  exact shorten_eq _ _ _

/-- C82.  The squared clipping stage keeps the direction.  A reference shorter than `1 - margin` (in units of the limits) is
returned unchanged; of a longer one the product of the lengths of input and output is `1 - margin`. -/
theorem c82_length_partial (limits r : Fin n → K) (margin : K) (hm : margin < 1) :
    (∃ c : K, 0 ≤ c ∧ ∀ i, (Clip.squared limits margin).call r i = c * r i)
    ∧ (lengthSq limits r < (1 - margin) ^ 2 → (Clip.squared limits margin).call r = r)
    ∧ ((1 - margin) ^ 2 ≤ lengthSq limits r →
        lengthSq limits ((Clip.squared limits margin).call r) * lengthSq limits r = (1 - margin) ^ 2) := by
  have h1 : 0 < (1 - margin) ^ 2 := pow_pos (by linarith) 2
  rw [squared_call]
  refine ⟨⟨_, ?_, fun i => rfl⟩, ?_, ?_⟩
  · split
    · exact zero_le_one
    · exact div_nonneg (by linarith) (lengthSq_nonneg _ _)
  · intro h
    simp [h]
  · intro h
    rw [lengthSq_smul, factor_sq hm, if_neg (not_lt.mpr h)]
    exact div_mul_cancel₀ _ (h1.trans_le h).ne'

/-- C82 is violated: the longer the reference, the shorter the clipped one.  In a machine with voltage limits of 100 V the
set point (200, 0) is clipped to (50, 0), not to (100, 0), and (400, 0) to (25, 0). -/
theorem c82_length_violated :
    (Clip.tuneSquared ![100, 100] 0).call ![(200 : ℚ), 0] = ![50, 0]
    ∧ (Clip.tuneSquared ![100, 100] 0).call ![(400 : ℚ), 0] = ![25, 0] := by
  constructor <;>
  · funext i
    fin_cases i <;> norm_num [Clip.tuneSquared, Clip.call, shorten, Fin.sum_univ_two]

/-- C48.  A tuned squared clipping stage never returns a reference that is longer than the limits allow. -/
theorem c48_squared_partial (limits r : Fin n → K) (margin : K) :
    lengthSq limits ((Clip.tuneSquared limits margin).call r) ≤ 1 := by
  rw [Clip.tuneSquared, squared_call, lengthSq_smul, factor_sq (by norm_num)]
  simp only [sub_zero, one_pow]
  split
  · next h => exact h.le
  · next h => exact div_le_one_of_le₀ (not_lt.mp h) (lengthSq_nonneg _ _)

/-- C48 is violated by the squared clipping stage: it forgets the margin it is tuned with.  With a margin of 20 % a current
reference of 90 % of the limit passes. -/
theorem c48_squared_margin_violated :
    (Clip.tuneSquared ![100, 100] (1 / 5)).call ![(90 : ℚ), 0] = ![90, 0]
    ∧ (1 - 1 / 5 : ℚ) ^ 2 < lengthSq ![100, 100] ((Clip.tuneSquared ![100, 100] (1 / 5)).call ![(90 : ℚ), 0]) := by
  have h : (Clip.tuneSquared ![100, 100] (1 / 5)).call ![(90 : ℚ), 0] = ![90, 0] := by
    funext i
    fin_cases i <;> norm_num [Clip.tuneSquared, Clip.call, shorten, Fin.sum_univ_two]
  refine ⟨h, ?_⟩
  rw [h]
  norm_num [lengthSq, Fin.sum_univ_two]

theorem partLengthSq_congr (g : Fin n → Bool) (limits v w : Fin n → K) (h : ∀ i, g i = true → v i = w i) :
    partLengthSq g limits v = partLengthSq g limits w := by
  unfold partLengthSq
  refine Finset.sum_congr rfl fun i _ => ?_
  split
  · next hi => rw [h i hi]
  · rfl

theorem combined_part (g : Fin n → Bool) (limits lo hi r : Fin n → K) (margin : K) (hm : margin < 1) :
    partLengthSq g limits ((Clip.combined g limits lo hi margin).call r)
      = if partLengthSq g limits r < (1 - margin) ^ 2 then partLengthSq g limits r
        else (1 - margin) ^ 2 / partLengthSq g limits r := by
  rw [partLengthSq_congr g limits _ (fun i => (if partLengthSq g limits r < (1 - margin) ^ 2 then 1
    else (1 - margin) / partLengthSq g limits r) * r i), partLengthSq_smul, factor_sq hm]
  intro i hi
  simp only [Clip.call, hi, if_true]
  exact shorten_eq _ _ _

/-- C48.  A tuned combined clipping stage keeps the length of the stator part within the part `1 - margin` of its limits and
the excitation part within the part `1 - margin` of its range. -/
theorem c48_combined (g : Fin n → Bool) (limit low high r : Fin n → K) (margin : K) (hm0 : 0 ≤ margin) (hm1 : margin < 1)
    (hl : ∀ i, 0 < limit i) (hlow : ∀ i, low i ≤ 0) (hhigh : ∀ i, 0 ≤ high i) :
    partLengthSq g limit ((Clip.tuneCombined g limit low high margin).call r) ≤ (1 - margin) ^ 2
    ∧ ∀ i, g i = false →
      (1 - margin) * (low i * limit i) ≤ (Clip.tuneCombined g limit low high margin).call r i
      ∧ (Clip.tuneCombined g limit low high margin).call r i ≤ (1 - margin) * (high i * limit i) := by
  have hM : 0 < 1 - margin := by linarith
  have hM2 : 0 < (1 - margin) ^ 2 := pow_pos hM 2
  have hM1 : (1 - margin) ^ 2 ≤ 1 := pow_le_one₀ hM.le (by linarith)
  constructor
  · have hs : ∀ v : Fin n → K, partLengthSq g limit v
        = (1 - margin) ^ 2 * partLengthSq g (fun i => limit i * (1 - margin)) v := by
      intro v
      unfold partLengthSq
      rw [Finset.mul_sum]
      refine Finset.sum_congr rfl fun i _ => ?_
      split
      · have := (hl i).ne'
        field_simp
      · rw [mul_zero]
    rw [hs, Clip.tuneCombined, combined_part _ _ _ _ _ _ hm1]
    refine mul_le_of_le_one_right hM2.le ?_
    split
    · next h => exact h.le.trans hM1
    · next h => exact div_le_one_of_le₀ (not_lt.mp h) (partLengthSq_nonneg _ _ _)
  · intro i hi
    have h0 : 0 ≤ limit i * (1 - margin) := (mul_pos (hl i) hM).le
    have h := ctl_clip_mem (x := r i) (lo := low i * (limit i * (1 - margin))) (hi := high i * (limit i * (1 - margin)))
      ((mul_nonpos_of_nonpos_of_nonneg (hlow i) h0).trans (mul_nonneg (hhigh i) h0))
    have e : (Clip.tuneCombined g limit low high margin).call r i
        = clip (r i) (low i * (limit i * (1 - margin))) (high i * (limit i * (1 - margin))) := by
      simp [Clip.tuneCombined, Clip.call, hi]
    rw [e]
    constructor
    · calc _ = low i * (limit i * (1 - margin)) := by ring
        _ ≤ _ := h.1
    · calc _ ≤ _ := h.2
        _ = _ := by ring

example : (Clip.tuneCombined ![true, true, false] ![100, 100, 10] ![-1, -1, 0] ![1, 1, 1] (1 / 2)).call
    ![(200 : ℚ), 0, 7] = ![200 / 16 * (1 / 2), 0, 5] := by
  funext i
  fin_cases i <;> norm_num [Clip.tuneCombined, Clip.call, shorten, clip, Fin.sum_univ_succ]

/-- Every tuned clipping stage returns admissible references. -/
theorem call_admissible (c : Clip n K) (hc : Tuned c) (r : Fin n → K) : Admissible c (c.call r) := by
  cases c with
  | absolute lo hi => exact fun i => ctl_clip_mem (hc i)
  | squared limits margin =>
    obtain rfl : margin = 0 := hc
    show lengthSq _ _ ≤ (1 - 0) ^ 2
    have := c48_squared_partial limits r 0
    simpa [Clip.tuneSquared] using this
  | combined g limits lo hi margin =>
    obtain ⟨h0, h1, h2⟩ := hc
    constructor
    · rw [combined_part _ _ _ _ _ _ h1]
      have hM1 : (1 - margin) ^ 2 ≤ 1 := pow_le_one₀ (by linarith) (by linarith)
      split
      · next h => exact h.le.trans hM1
      · next h => exact div_le_one_of_le₀ (not_lt.mp h) (partLengthSq_nonneg _ _ _)
    · intro i hg
      have e : (Clip.combined g limits lo hi margin).call r i = clip (r i) (lo i) (hi i) := by simp [Clip.call, hg]
      rw [e]
      exact ctl_clip_mem (h2 i hg)

/-! ## C49: set points stay in the range -/

/-- A current controller for one current, tuned for the voltage range [0, 100] V: `p_gain = 10`, no decoupling. -/
def exCurrent : Current 1 1 ℚ where
  base := { Base.tuneCurrent .PI (fun _ => 1 / 250) (1 / 10000) 4 (fun _ => 0) with integrator := some (fun _ => 0) }
  ff := none
  clipping := .tuneAbsolute (fun _ => 100) (fun _ => 0) (fun _ => 1) 0
  tau := 1 / 10000
  idx := fun _ => 0
  voltage := []

/-- C49 is violated: the current controller clips the voltage, keeps the clipped value to itself and returns the value before
clipping.  With the current at 0 A and a reference of 50 A it returns 500 V, its range being [0, 100] V; for a reference of
-50 A it returns -500 V. -/
theorem c49_returned_violated :
    exCurrent.clipping.call (fun _ => 500) = (fun _ => 100)
    ∧ (exCurrent.control (fun _ u => u) (fun _ => 0) (fun _ => 50)).2 = .ok (fun _ => 500)
    ∧ (exCurrent.control (fun _ u => u) (fun _ => 0) (fun _ => 50)).1.voltage = [100]
    ∧ (exCurrent.controlTop (fun _ u => u) (fun _ => 0) (fun _ => 50)).1.voltage = [500]
    ∧ (exCurrent.control (fun _ u => u) (fun _ => 0) (fun _ => -50)).2 = .ok (fun _ => -500) := by
  have h : ∀ x : ℚ, (fun _ : Fin 1 => x) = (fun _ => x) := fun _ => rfl
  refine ⟨?_, ?_, ?_, ?_, ?_⟩
  · funext i
    norm_num [exCurrent, Clip.tuneAbsolute, Clip.call, clip]
  all_goals
    simp only [exCurrent, Current.control, Current.controlTop, Current.store, Current.raw, Base.control,
      Base.tuneCurrent, Base.integrate, Kind.integrates, Base.pPart, Base.iPart, Base.integ, Base.error, Except.map,
      if_true, Clip.tuneAbsolute, Clip.call, clip, List.ofFn_succ, List.ofFn_zero, Option.getD]
    norm_num

/-- C49.  What holds: with `w` the voltage the stages computed, the returned value is the transformed `w`, and the reference
stored in the call is the clipped `w`, which is admissible. -/
theorem c49_stored_partial (T : (Fin m → K) → (Fin n → K) → (Fin k → K)) (c : Current n m K) (hc : Tuned c.clipping)
    (s : Fin m → K) (r : Fin n → K) (u : Fin k → K) (h : (c.control T s r).2 = .ok u) :
    ∃ w : Fin n → K, u = T s w ∧ (c.control T s r).1.voltage = List.ofFn (c.clipping.call w)
      ∧ Admissible c.clipping (c.clipping.call w) := by
  refine ⟨c.raw s r, ?_, rfl, call_admissible _ hc _⟩
  simp only [Current.control] at h
  revert h
  cases ((c.base.control s r).1.integrate (antiWindup c.tau c.idx s r (c.clipping.difference (c.raw s r)))).2 with
  | error e => intro h; cases h
  | ok x => intro h; exact (Except.ok.inj h).symm

/-- C49.  For direct current machines: the returned voltage is in the range exactly if it is the stored one. -/
theorem c49_returned_partial (c : Current n m K) (lo hi : Fin n → K) (hc : c.clipping = .absolute lo hi)
    (hr : ∀ i, lo i ≤ hi i) (s : Fin m → K) (r u : Fin n → K) (h : (c.control (fun _ v => v) s r).2 = .ok u) :
    (∀ i, lo i ≤ u i ∧ u i ≤ hi i) ↔ (c.control (fun _ v => v) s r).1.voltage = List.ofFn u := by
  obtain ⟨w, h1, h2, -⟩ := c49_stored_partial (fun _ v => v) c (by rw [hc]; exact hr) s r u h
  obtain rfl : u = w := h1
  rw [h2, hc, List.ofFn_inj]
  constructor
  · intro h
    funext i
    exact (clip_eq (hr i)).mpr (h i)
  · intro h i
    exact (clip_eq (hr i)).mp (congrFun h i)

/-- C49.  The torque reference of the speed controller is always in the tuned torque range. -/
theorem c49_torque (c : Speed m K) (hc : Tuned c.clipping) (s : Fin m → K) (r : Fin 1 → K) (t : Fin 1 → K)
    (h : (c.control s r).2 = .ok t) : Admissible c.clipping t := by
  simp only [Speed.control] at h
  revert h
  cases ((c.base.control s r).1.integrate
    (antiWindup c.tau c.idx s r (c.clipping.difference (c.base.control s r).2))).2 with
  | error e => intro h; cases h
  | ok x => intro h; rw [← Except.ok.inj h]; exact call_admissible _ hc _

/-- C49.  Whatever the operation point selection answers, the current controller below a torque controller is called with an
admissible current reference: a call that succeeds is a call of the current controller with such a reference. -/
theorem c49_current {σ : Type} (T : (Fin m → K) → (Fin n → K) → (Fin k → K))
    (ops : σ → (Fin m → K) → K → Call σ (Fin n → K)) (cl : Clip n K) (hc : Tuned cl) (st : σ × Current n m K)
    (s : Fin m → K) (torque : K) (u : Fin k → K) (h : (torqueControl T ops cl st s torque).2 = .ok u) :
    ∃ i : Fin n → K, Admissible cl i ∧ (st.2.control T s i).2 = .ok u
      ∧ (torqueControl T ops cl st s torque).1.2 = (st.2.control T s i).1 := by
  unfold torqueControl at h ⊢
  cases ho : (ops st.1 s torque).2 with
  | error e => simp only [ho] at h; cases h
  | ok i =>
    simp only [ho] at h ⊢
    exact ⟨_, call_admissible _ hc i, h, rfl⟩

/-! ## C50: anti-windup -/

theorem integrate_integ (b : Base n m K) (h : b.kind.integrates = true) (v d : Fin n → K) (hv : b.integrator = some v) :
    b.integrate d = ({ b with integrator := some (fun i => v i + d i) }, .ok ()) := by
  simp [Base.integrate, h, hv]

theorem control_keeps (b : Base n m K) (s : Fin m → K) (r : Fin n → K) :
    (b.control s r).1.kind = b.kind ∧ (b.control s r).1.pGain = b.pGain ∧ (b.control s r).1.iGain = b.iGain
    ∧ (b.control s r).1.dGain = b.dGain ∧ (b.control s r).1.tau = b.tau ∧ (b.control s r).1.idx = b.idx
    ∧ (b.control s r).1.integrator = b.integrator := by
  unfold Base.control
  split <;> exact ⟨rfl, rfl, rfl, rfl, rfl, rfl, rfl⟩

theorem mul_sumUnclipped_cons (tau : K) (i : Fin n) (st : Step n K) (rest : List (Step n K)) :
    tau * sumUnclipped i (st :: rest)
      = tau * st.error i * (if st.computed i - st.stored i = 0 then 1 else 0) + tau * sumUnclipped i rest := by
  simp only [sumUnclipped, sub_eq_zero]
  split <;> ring

theorem current_step (T : (Fin m → K) → (Fin n → K) → (Fin k → K)) (c : Current n m K)
    (hk : c.base.kind.integrates = true) (v : Fin n → K) (hv : c.base.integrator = some v) (s : Fin m → K)
    (r : Fin n → K) :
    (c.control T s r).2 = .ok (T s (c.raw s r))
    ∧ (c.control T s r).1.base.kind = c.base.kind
    ∧ (c.control T s r).1.tau = c.tau ∧ (c.control T s r).1.idx = c.idx ∧ (c.control T s r).1.ff = c.ff
    ∧ (c.control T s r).1.clipping = c.clipping
    ∧ (c.control T s r).1.base.pGain = c.base.pGain ∧ (c.control T s r).1.base.iGain = c.base.iGain
    ∧ (c.control T s r).1.base.idx = c.base.idx
    ∧ (c.control T s r).1.base.integrator = some (fun i => v i + c.tau * (r i - s (c.idx i)) *
        (if c.raw s r i - c.clipping.call (c.raw s r) i = 0 then 1 else 0)) := by
  obtain ⟨h1, h2, h3, h4, h5, h6, h7⟩ := control_keeps c.base s r
  have hi := integrate_integ (c.base.control s r).1 (by rw [h1]; exact hk) v
    (antiWindup c.tau c.idx s r (c.clipping.difference (c.raw s r))) (by rw [h7]; exact hv)
  have e1 : (c.control T s r).2 = .ok (T s (c.raw s r)) := by
    simp only [Current.control, hi]
    rfl
  have e2 : (c.control T s r).1.base = { (c.base.control s r).1 with integrator := some (fun i => v i +
      antiWindup c.tau c.idx s r (c.clipping.difference (c.raw s r)) i) } := by
    simp only [Current.control, hi]
  rw [e2]
  exact ⟨e1, h1, rfl, rfl, rfl, rfl, h2, h3, h6, rfl⟩

/-- C50.  After a reset, with any sequence of states and references, no call raises and the integrator is `tau` times the sum
of the errors of the steps in which the voltage was not clipped; component by component. -/
theorem c50_current (T : (Fin m → K) → (Fin n → K) → (Fin k → K)) (c : Current n m K)
    (hk : c.base.kind.integrates = true) (xs : List ((Fin m → K) × (Fin n → K))) :
    (∀ a ∈ (c.reset.run T xs).2, ∃ u, a = .ok u)
    ∧ (c.reset.run T xs).1.base.integrator
        = some (fun i => c.tau * sumUnclipped i (c.reset.steps T xs)) := by
  have key : ∀ (xs : List ((Fin m → K) × (Fin n → K))) (d : Current n m K) (v : Fin n → K),
      d.base.kind.integrates = true → d.base.integrator = some v →
      (∀ a ∈ (d.run T xs).2, ∃ u, a = .ok u)
      ∧ (d.run T xs).1.base.integrator = some (fun i => v i + d.tau * sumUnclipped i (d.steps T xs)) := by
    intro xs
    induction xs with
    | nil =>
      intro d v _ hv
      refine ⟨fun a ha => (List.not_mem_nil ha).elim, ?_⟩
      simp [Current.run, Current.steps, sumUnclipped, hv]
    | cons x xs ih =>
      intro d v hd hv
      obtain ⟨h1, h2, h3, h4, h5, h6, h7, h8, h9, h10⟩ := current_step T d hd v hv x.1 x.2
      obtain ⟨i1, i2⟩ := ih (d.control T x.1 x.2).1 _ (by rw [h2]; exact hd) h10
      constructor
      · intro a ha
        rcases List.mem_cons.mp ha with rfl | ha
        · exact ⟨_, h1⟩
        · exact i1 a ha
      · show (Current.run T (d.control T x.1 x.2).1 xs).1.base.integrator = _
        rw [i2]
        congr 1
        funext i
        rw [h3, Current.steps, mul_sumUnclipped_cons, ← add_assoc]
  have h := key xs c.reset (fun _ => 0) (by simp [Current.reset, Base.reset, hk])
    (by simp [Current.reset, Base.reset, hk])
  refine ⟨h.1, ?_⟩
  rw [h.2]
  congr 1
  funext i
  rw [zero_add]
  rfl

/-- C50.  The law of the PI current controller in closed form: without feedforward, the voltage it computes in the step
after the inputs `xs` since the reset is the proportional part plus `i_gain * tau` times the sum of the unclipped errors. -/
theorem c50_pi_law (T : (Fin m → K) → (Fin n → K) → (Fin k → K)) (c : Current n m K) (hk : c.base.kind = .PI)
    (hf : c.ff = none) (xs : List ((Fin m → K) × (Fin n → K))) (s : Fin m → K) (r : Fin n → K) :
    ((c.reset.run T xs).1.control T s r).2 = .ok (T s (fun i => c.base.pGain i * (r i - s (c.base.idx i))
      + c.base.iGain i * (c.tau * sumUnclipped i (c.reset.steps T xs)))) := by
  have hki : c.base.kind.integrates = true := by rw [hk]; rfl
  have h50 := (c50_current T c hki xs).2
  have key : ∀ (xs : List ((Fin m → K) × (Fin n → K))) (d : Current n m K) (v : Fin n → K),
      d.base.kind = .PI → d.base.integrator = some v →
      (d.run T xs).1.base.kind = .PI ∧ (d.run T xs).1.ff = d.ff ∧ (d.run T xs).1.base.pGain = d.base.pGain
      ∧ (d.run T xs).1.base.iGain = d.base.iGain ∧ (d.run T xs).1.base.idx = d.base.idx := by
    intro xs
    induction xs with
    | nil => intro d v hd _; exact ⟨hd, rfl, rfl, rfl, rfl⟩
    | cons x xs ih =>
      intro d v hd hv
      obtain ⟨h1, h2, h3, h4, h5, h6, h7, h8, h9, h10⟩ := current_step T d (by rw [hd]; rfl) v hv x.1 x.2
      obtain ⟨j1, j2, j3, j4, j5⟩ := ih (d.control T x.1 x.2).1 _ (by rw [h2]; exact hd) h10
      exact ⟨j1, j2.trans h5, j3.trans h7, j4.trans h8, j5.trans h9⟩
  obtain ⟨j1, j2, j3, j4, j5⟩ := key xs c.reset (fun _ => 0) (by rw [show c.reset.base.kind = c.base.kind from (by simp only [Current.reset, Base.reset, hki, if_true])]; exact hk)
    (by simp [Current.reset, Base.reset, hki])
  obtain ⟨h1, -⟩ := current_step T (c.reset.run T xs).1 (by rw [j1]; rfl) _ h50 s r
  rw [h1]
  have e : (c.reset.run T xs).1.raw s r = fun i => c.base.pGain i * (r i - s (c.base.idx i))
      + c.base.iGain i * (c.tau * sumUnclipped i (c.reset.steps T xs)) := by
    have hf' : c.reset.ff = none := hf
    have hp : c.reset.base.pGain = c.base.pGain := by simp [Current.reset, Base.reset, hki]
    have hi' : c.reset.base.iGain = c.base.iGain := by simp [Current.reset, Base.reset, hki]
    have hx : c.reset.base.idx = c.base.idx := by simp [Current.reset, Base.reset, hki]
    unfold Current.raw
    rw [j2, hf']
    simp only [Base.control, j1, Base.pPart, Base.iPart, Base.error, Base.integ, h50, Option.getD, j3, j4, j5, hp, hi', hx]
  rw [e]

theorem speed_step (c : Speed m K) (hk : c.base.kind.integrates = true) (v : Fin 1 → K)
    (hv : c.base.integrator = some v) (s : Fin m → K) (r : Fin 1 → K) :
    (c.control s r).2 = .ok (c.clipping.call (c.base.control s r).2)
    ∧ (c.control s r).1.base.kind = c.base.kind
    ∧ (c.control s r).1.tau = c.tau ∧ (c.control s r).1.idx = c.idx ∧ (c.control s r).1.clipping = c.clipping
    ∧ (c.control s r).1.base.integrator = some (fun i => v i + c.tau * (r i - s (c.idx i)) *
        (if (c.base.control s r).2 i - c.clipping.call (c.base.control s r).2 i = 0 then 1 else 0)) := by
  obtain ⟨h1, h2, h3, h4, h5, h6, h7⟩ := control_keeps c.base s r
  have hi := integrate_integ (c.base.control s r).1 (by rw [h1]; exact hk) v
    (antiWindup c.tau c.idx s r (c.clipping.difference (c.base.control s r).2)) (by rw [h7]; exact hv)
  have e1 : (c.control s r).2 = .ok (c.clipping.call (c.base.control s r).2) := by
    simp only [Speed.control, hi]
    rfl
  have e2 : (c.control s r).1.base = { (c.base.control s r).1 with integrator := some (fun i => v i +
      antiWindup c.tau c.idx s r (c.clipping.difference (c.base.control s r).2) i) } := by
    simp only [Speed.control, hi]
  rw [e2]
  exact ⟨e1, h1, rfl, rfl, rfl, rfl⟩

/-- C50, for the speed controller. -/
theorem c50_speed (c : Speed m K) (hk : c.base.kind.integrates = true) (xs : List ((Fin m → K) × (Fin 1 → K))) :
    (∀ a ∈ (c.reset.run xs).2, ∃ u, a = .ok u)
    ∧ (c.reset.run xs).1.base.integrator = some (fun i => c.tau * sumUnclipped i (c.reset.steps xs)) := by
  have key : ∀ (xs : List ((Fin m → K) × (Fin 1 → K))) (d : Speed m K) (v : Fin 1 → K),
      d.base.kind.integrates = true → d.base.integrator = some v →
      (∀ a ∈ (d.run xs).2, ∃ u, a = .ok u)
      ∧ (d.run xs).1.base.integrator = some (fun i => v i + d.tau * sumUnclipped i (d.steps xs)) := by
    intro xs
    induction xs with
    | nil =>
      intro d v _ hv
      refine ⟨fun a ha => (List.not_mem_nil ha).elim, ?_⟩
      simp [Speed.run, Speed.steps, sumUnclipped, hv]
    | cons x xs ih =>
      intro d v hd hv
      obtain ⟨h1, h2, h3, h4, h5, h10⟩ := speed_step d hd v hv x.1 x.2
      obtain ⟨i1, i2⟩ := ih (d.control x.1 x.2).1 _ (by rw [h2]; exact hd) h10
      constructor
      · intro a ha
        rcases List.mem_cons.mp ha with rfl | ha
        · exact ⟨_, h1⟩
        · exact i1 a ha
      · show (Speed.run (d.control x.1 x.2).1 xs).1.base.integrator = _
        rw [i2]
        congr 1
        funext i
        rw [h3, Speed.steps, mul_sumUnclipped_cons, ← add_assoc]
  have h := key xs c.reset (fun _ => 0) (by simp [Speed.reset, Base.reset, hk])
    (by simp [Speed.reset, Base.reset, hk])
  refine ⟨h.1, ?_⟩
  rw [h.2]
  congr 1
  funext i
  rw [zero_add]
  rfl

/-- A run in which the second of three steps is clipped: the integrator holds 5 V·s/V + 2. -/
example : (exCurrent.reset.run (fun _ u => u) [(fun _ => 0, fun _ => 5), (fun _ => 0, fun _ => 50),
    (fun _ => 0, fun _ => 2)]).1.base.integrator.map (fun v => v 0) = some (7 / 10000) := by
  rw [(c50_current (fun _ u => u) exCurrent rfl _).2]
  simp only [exCurrent, Current.reset, Base.reset, Current.steps, Current.control, Current.raw, Base.control,
      Base.tuneCurrent, Base.integrate, Kind.integrates, Base.pPart, Base.iPart, Base.integ, Base.error, antiWindup,
      if_true, Clip.tuneAbsolute, Clip.call, Clip.difference, clip, Option.getD, sumUnclipped, Option.map]
  norm_num

/-! ## C51: reset -/

theorem SameSetup.control {b b' : Base n m K} (h : b.SameSetup b') (s : Fin m → K) (r : Fin n → K) :
    (b.control s r).1.SameSetup (b'.control s r).1 := by
  obtain ⟨h1, h2, h3, h4, h5, h6⟩ := h
  obtain ⟨a1, a2, a3, a4, a5, a6, -⟩ := control_keeps b s r
  obtain ⟨b1, b2, b3, b4, b5, b6, -⟩ := control_keeps b' s r
  exact ⟨by rw [a1, b1, h1], by rw [a2, b2, h2], by rw [a3, b3, h3], by rw [a4, b4, h4], by rw [a5, b5, h5],
    by rw [a6, b6, h6]⟩

/-- Everything that matters for the outputs of a controller that is not differential. -/
def Base.Same (b b' : Base n m K) : Prop :=
  b.SameSetup b' ∧ (b.kind.integrates = true → b.integrator = b'.integrator) ∧ (b.kind = .PID → b.last = b'.last)

theorem same_control {b b' : Base n m K} (h : Base.Same b b') (s : Fin m → K) (r : Fin n → K) :
    (b.control s r).2 = (b'.control s r).2 ∧ Base.Same (b.control s r).1 (b'.control s r).1 := by
  obtain ⟨hs, hi, hl⟩ := h
  have hs' := SameSetup.control hs s r
  obtain ⟨h1, h2, h3, h4, h5, h6⟩ := hs
  obtain ⟨a1, -, -, -, -, -, a7⟩ := control_keeps b s r
  obtain ⟨b1, -, -, -, -, -, b7⟩ := control_keeps b' s r
  refine ⟨?_, hs', ?_, ?_⟩
  · funext j
    cases hb : b.kind with
    | P => simp only [Base.control, hb, ← h1, Base.pPart, Base.error, h2, h6]
    | I =>
      have hi' := hi (by rw [hb]; rfl)
      simp only [Base.control, hb, ← h1, Base.iPart, Base.integ, h3, hi']
    | PI =>
      have hi' := hi (by rw [hb]; rfl)
      simp only [Base.control, hb, ← h1, Base.iPart, Base.integ, h3, hi', Base.pPart, Base.error, h2, h6]
    | PID =>
      have hi' := hi (by rw [hb]; rfl)
      have hl' := hl hb
      simp only [Base.control, hb, ← h1, Base.iPart, Base.integ, h3, hi', Base.pPart, Base.error, h2, h6, Base.dPart, h4,
        hl', h5]
  · intro hk
    rw [a7, b7]
    exact hi (by rw [← a1]; exact hk)
  · intro hk
    rw [a1] at hk
    have hk' : b'.kind = .PID := by rw [← h1]; exact hk
    funext j
    simp only [Base.control, hk, hk', Base.error, h6]

theorem same_integrate {b b' : Base n m K} (h : Base.Same b b') (d : Fin n → K) :
    (b.integrate d).2 = (b'.integrate d).2 ∧ Base.Same (b.integrate d).1 (b'.integrate d).1 := by
  obtain ⟨hs, hi, hl⟩ := h
  have hk := hs.1
  cases hb : b.kind.integrates with
  | false =>
    have hb' : b'.kind.integrates = false := by rw [← hk]; exact hb
    rw [Base.integrate, Base.integrate, hb, hb']
    exact ⟨rfl, hs, hi, hl⟩
  | true =>
    have hb' : b'.kind.integrates = true := by rw [← hk]; exact hb
    have hi' := hi hb
    rw [Base.integrate, Base.integrate, hb, hb', ← hi']
    simp only [if_true]
    cases hv : b.integrator with
    | some v => exact ⟨rfl, hs, fun _ => rfl, hl⟩
    | none =>
      by_cases hn : n = 1
      · simp only [if_pos hn]
        exact ⟨trivial, hs, fun _ => rfl, hl⟩
      · simp only [if_neg hn]
        exact ⟨trivial, hs, hi, hl⟩

theorem same_outputs (asks : List (Ask n m K)) : ∀ {b b' : Base n m K}, Base.Same b b' →
    b.outputs asks = b'.outputs asks := by
  induction asks with
  | nil => intros; rfl
  | cons a as ih =>
    intro b b' h
    cases a with
    | control s r =>
      obtain ⟨h1, h2⟩ := same_control h s r
      simp only [Base.outputs]
      rw [h1, ih h2]
    | integrate d => exact ih (same_integrate h d).2

theorem reset_keeps (b : Base n m K) : b.reset.kind = b.kind ∧ b.reset.pGain = b.pGain ∧ b.reset.iGain = b.iGain
    ∧ b.reset.dGain = b.dGain ∧ b.reset.tau = b.tau ∧ b.reset.idx = b.idx ∧ b.reset.last = b.last
    ∧ (b.kind.integrates = true → b.reset.integrator = some (fun _ => 0)) := by
  unfold Base.reset
  split
  · exact ⟨rfl, rfl, rfl, rfl, rfl, rfl, rfl, fun _ => rfl⟩
  · next h => exact ⟨rfl, rfl, rfl, rfl, rfl, rfl, rfl, fun h' => (h h').elim⟩

theorem sameSetup_reset {b b' : Base n m K} (h : b.SameSetup b') : b.reset.SameSetup b'.reset := by
  obtain ⟨h1, h2, h3, h4, h5, h6⟩ := h
  obtain ⟨a1, a2, a3, a4, a5, a6, -⟩ := reset_keeps b
  obtain ⟨b1, b2, b3, b4, b5, b6, -⟩ := reset_keeps b'
  exact ⟨by rw [a1, b1, h1], by rw [a2, b2, h2], by rw [a3, b3, h3], by rw [a4, b4, h4], by rw [a5, b5, h5],
    by rw [a6, b6, h6]⟩

theorem same_reset {b b' : Base n m K} (h : b.SameSetup b') (hl : b.kind = .PID → b.last = b'.last) :
    Base.Same b.reset b'.reset := by
  obtain ⟨a1, a2, a3, a4, a5, a6, a7, a8⟩ := reset_keeps b
  obtain ⟨b1, b2, b3, b4, b5, b6, b7, b8⟩ := reset_keeps b'
  refine ⟨sameSetup_reset h, ?_, ?_⟩
  · intro hk
    rw [a1] at hk
    rw [a8 hk, b8 (by rw [← h.1]; exact hk)]
  · intro hk
    rw [a1] at hk
    rw [a7, b7]
    exact hl hk

/-- C51.  Two P, I or PI controllers that are set up in the same way answer identically after a reset, whatever they were
used for before and whatever they are asked afterwards. -/
theorem c51_reset_partial (b b' : Base n m K) (h : b.SameSetup b') (hk : b.kind ≠ .PID) (asks : List (Ask n m K)) :
    b.reset.outputs asks = b'.reset.outputs asks :=
  same_outputs asks (same_reset h (fun e => (hk e).elim))

/-- A PID controller after a call with error `e`. -/
def exPid (e : ℚ) : Base 1 1 ℚ :=
  ((Base.tuneCurrent .PID (fun _ => 1 / 250) (1 / 10000) 4 (fun _ => 0)).control (fun _ => 0) (fun _ => e)).1

/-- C51 is violated by the PID controller: the last error survives the reset.  The same first question after the reset is
answered by 20 V if the last error before the reset was 0 A and by 0 V if it was 2 A. -/
theorem c51_pid_violated :
    (exPid 0).reset.outputs [.control (fun _ => 0) (fun _ => 1)] = [fun _ => 20]
    ∧ (exPid 2).reset.outputs [.control (fun _ => 0) (fun _ => 1)] = [fun _ => 0] := by
  constructor <;>
  · simp only [exPid, Base.outputs, Base.reset, Base.control, Base.tuneCurrent, Kind.integrates, if_true, Base.pPart,
      Base.iPart, Base.dPart, Base.integ, Base.error, Option.getD]
    norm_num

/-- C51.  For the PID controller only the first answer after the reset depends on the past: it differs by the differential
gain times the difference of the last errors over `tau`, and all later answers are the same. -/
theorem c51_pid_partial (b b' : Base n m K) (h : b.SameSetup b') (hk : b.kind = .PID) (s : Fin m → K) (r : Fin n → K)
    (asks : List (Ask n m K)) :
    ∃ x x' rest, b.reset.outputs (.control s r :: asks) = x :: rest
      ∧ b'.reset.outputs (.control s r :: asks) = x' :: rest
      ∧ ∀ i, x i - x' i = b.dGain i * (b'.last i - b.last i) / b.tau := by
  obtain ⟨a1, a2, a3, a4, a5, a6, a7, a8⟩ := reset_keeps b
  obtain ⟨b1, b2, b3, b4, b5, b6, b7, b8⟩ := reset_keeps b'
  have hk' : b'.kind = .PID := by rw [← h.1]; exact hk
  have e1 := a8 (by rw [hk]; rfl)
  have e2 := b8 (by rw [hk']; rfl)
  refine ⟨_, (b'.reset.control s r).2, _, rfl, ?_, ?_⟩
  · simp only [Base.outputs]
    congr 1
    symm
    refine same_outputs asks ⟨SameSetup.control (sameSetup_reset h) s r, fun _ => ?_, fun _ => ?_⟩
    · rw [(control_keeps b.reset s r).2.2.2.2.2.2, (control_keeps b'.reset s r).2.2.2.2.2.2, e1, e2]
    · have q1 : b.reset.kind = .PID := by rw [a1, hk]
      have q2 : b'.reset.kind = .PID := by rw [b1, hk']
      funext j
      simp only [Base.control, q1, q2, Base.error, a6, b6, h.2.2.2.2.2]
  · intro i
    have q1 : b.reset.kind = .PID := by rw [a1, hk]
    have q2 : b'.reset.kind = .PID := by rw [b1, hk']
    obtain ⟨-, g2, g3, g4, g5, g6⟩ := h
    simp only [Base.control, q1, q2, Base.pPart, Base.iPart, Base.dPart, Base.integ, Base.error, e1, e2, a2, b2, a3, b3,
      a4, b4, a5, b5, a6, b6, a7, b7, Option.getD, g2, g3, g4, g5, g6]
    ring

/-- C51, for whole current controllers: with P, I or PI as base controller the voltages (and exceptions) after a reset depend
only on the inputs after the reset. -/
theorem c51_current_partial (T : (Fin m → K) → (Fin n → K) → (Fin k → K)) (c c' : Current n m K)
    (hb : c.base.SameSetup c'.base) (hk : c.base.kind ≠ .PID) (hf : c.ff = c'.ff) (hc : c.clipping = c'.clipping)
    (ht : c.tau = c'.tau) (hx : c.idx = c'.idx) (xs : List ((Fin m → K) × (Fin n → K))) :
    (c.reset.run T xs).2 = (c'.reset.run T xs).2 := by
  have key : ∀ (xs : List ((Fin m → K) × (Fin n → K))) (d d' : Current n m K), Base.Same d.base d'.base → d.ff = d'.ff →
      d.clipping = d'.clipping → d.tau = d'.tau → d.idx = d'.idx → (d.run T xs).2 = (d'.run T xs).2 := by
    intro xs
    induction xs with
    | nil => intros; rfl
    | cons x xs ih =>
      intro d d' h1 h2 h3 h4 h5
      obtain ⟨s1, s2⟩ := same_control h1 x.1 x.2
      have hr : d.raw x.1 x.2 = d'.raw x.1 x.2 := by
        unfold Current.raw
        rw [h2, s1]
      obtain ⟨t1, t2⟩ := same_integrate s2 (antiWindup d.tau d.idx x.1 x.2 (d.clipping.difference (d.raw x.1 x.2)))
      have e2 : (d.control T x.1 x.2).2 = (d'.control T x.1 x.2).2 := by
        simp only [Current.control]
        rw [t1, hr, h3, h4, h5]
      have e1 : Base.Same (d.control T x.1 x.2).1.base (d'.control T x.1 x.2).1.base := by
        simp only [Current.control]
        rw [hr, h3, h4, h5] at t2
        rw [hr, h3, h4, h5]
        exact t2
      show (d.control T x.1 x.2).2 :: (Current.run T (d.control T x.1 x.2).1 xs).2
        = (d'.control T x.1 x.2).2 :: (Current.run T (d'.control T x.1 x.2).1 xs).2
      rw [e2, ih (d.control T x.1 x.2).1 (d'.control T x.1 x.2).1 e1 h2 h3 h4 h5]
  exact key xs c.reset c'.reset (same_reset hb (fun e => (hk e).elim)) hf hc ht hx

/-! ## C83: use before the first reset -/

/-- C83 is violated: a current controller for two or more currents with an integrating base controller that was made and tuned
but not reset raises a ValueError in its first call. -/
theorem c83_before_reset_violated (T : (Fin m → K) → (Fin n → K) → (Fin k → K)) (c : Current n m K)
    (hk : c.base.kind.integrates = true) (hn : n ≠ 1) (hv : c.base.integrator = none) (s : Fin m → K) (r : Fin n → K) :
    (c.control T s r).2 = .error .value := by
  obtain ⟨h1, -, -, -, -, -, h7⟩ := control_keeps c.base s r
  simp only [Current.control, Base.integrate, h1, hk, if_true, h7, hv, if_neg hn, Except.map]

/-- C83.  What holds: for one current, or without an integrator, the first call of a controller that was never reset is the
call of the reset controller. -/
theorem c83_before_reset_partial (T : (Fin m → K) → (Fin n → K) → (Fin k → K)) (c : Current n m K)
    (hv : c.base.integrator = none) (h : n = 1 ∨ c.base.kind = .P) (s : Fin m → K) (r : Fin n → K) :
    (c.control T s r).2 = (c.reset.control T s r).2
    ∧ (c.base.kind.integrates = true →
        (c.control T s r).1.base.integrator = (c.reset.control T s r).1.base.integrator) := by
  by_cases hk : c.base.kind.integrates = true
  · have hn : n = 1 := by
      rcases h with h | h
      · exact h
      · rw [h] at hk; cases hk
    obtain ⟨a1, a2, a3, a4, a5, a6, a7, a8⟩ := reset_keeps c.base
    have e : (c.reset.base.control s r).2 = (c.base.control s r).2 := by
      funext j
      have q : ∀ kd, c.base.kind = kd → c.base.reset.kind = kd := fun kd h => by rw [a1, h]
      cases hc : c.base.kind <;>
        simp only [Current.reset, Base.control, hc, q _ hc, Base.pPart, Base.iPart, Base.dPart, Base.integ, Base.error,
          a8 hk, hv, Option.getD, a2, a3, a4, a5, a6, a7]
    have hraw : c.reset.raw s r = c.raw s r := by
      unfold Current.raw
      rw [e]
      rfl
    obtain ⟨h1, -, -, -, -, -, h7⟩ := control_keeps c.base s r
    have i1 : (c.base.control s r).1.integrate (antiWindup c.tau c.idx s r (c.clipping.difference (c.raw s r)))
        = ({ (c.base.control s r).1 with
            integrator := some (antiWindup c.tau c.idx s r (c.clipping.difference (c.raw s r))) }, .ok ()) := by
      simp only [Base.integrate, h1, hk, if_true, h7, hv, if_pos hn]
    obtain ⟨g1, -, -, -, -, -, -, -, -, g10⟩ := current_step T c.reset (by rw [show c.reset.base.kind = c.base.kind from a1]; exact hk)
      (fun _ => 0) (a8 hk) s r
    refine ⟨?_, fun _ => ?_⟩
    · rw [g1, hraw]
      simp only [Current.control, i1]
      rfl
    · rw [g10, hraw]
      simp only [Current.control, i1]
      congr 1
      funext i
      rw [zero_add]
      rfl
  · refine ⟨?_, fun h' => (hk h').elim⟩
    have : c.reset = c := by
      simp only [Current.reset, Base.reset, if_neg hk]
    rw [this]

/-! ## C52: three-point control and discrete outputs -/

/-- C52.  The three-point controller gives the low action exactly above the hysteresis band, the high action exactly below
it and the idle action exactly inside. -/
theorem c52_three_point (t : ThreePoint n m K) (s : Fin m → K) (r : Fin n → K) (i : Fin n) (h : 0 ≤ t.hysteresis i) :
    (s (t.idx i) > r i + t.hysteresis i → t.control s r i = t.low i)
    ∧ (s (t.idx i) < r i - t.hysteresis i → t.control s r i = t.high i)
    ∧ (|s (t.idx i) - r i| ≤ t.hysteresis i → t.control s r i = t.idle i) := by
  unfold ThreePoint.control
  refine ⟨fun h1 => ?_, fun h1 => ?_, fun h1 => ?_⟩
  · rw [if_pos (by linarith)]
  · rw [if_neg (by linarith), if_pos (by linarith)]
  · obtain ⟨h2, h3⟩ := abs_le.mp h1
    rw [if_neg (by linarith), if_neg (by linarith)]

/-- C52.  Tuned for current control, it commands the lowest voltage if the current is too high and the highest if it is too
low: the band is one hundredth of the voltage range. -/
theorem c52_three_point_tuned (lo hi : Fin n → K) (idx : Fin n → Fin m) (s : Fin m → K) (r : Fin n → K) (i : Fin n)
    (h : lo i ≤ hi i) :
    (s (idx i) > r i + (hi i - lo i) / 100 → (ThreePoint.tuneCurrent lo hi idx).control s r i = lo i)
    ∧ (s (idx i) < r i - (hi i - lo i) / 100 → (ThreePoint.tuneCurrent lo hi idx).control s r i = hi i)
    ∧ (|s (idx i) - r i| ≤ (hi i - lo i) / 100 → (ThreePoint.tuneCurrent lo hi idx).control s r i = 0) := by
  have e : (ThreePoint.tuneCurrent lo hi idx).hysteresis i = (hi i - lo i) / 100 := by
    simp only [ThreePoint.tuneCurrent]
    ring
  have := c52_three_point (ThreePoint.tuneCurrent lo hi idx) s r i (by rw [e]; exact div_nonneg (by linarith) (by norm_num))
  rw [e] at this
  exact this

example : (ThreePoint.tuneCurrent ![(-100 : ℚ)] ![100] ![0]).control ![3] ![10] = ![100] := by
  funext i
  fin_cases i
  norm_num [ThreePoint.tuneCurrent, ThreePoint.control]

theorem select_lt (n : ℕ) (hn : 2 ≤ n) (lo hi u : K) : selectAction (getActions n) lo hi u < n := by
  unfold selectAction getActions
  split_ifs <;> simp_all <;> omega

theorem selectAll_forall (nvec : List ℕ) : ∀ (ranges : List (K × K)) (us : List K), ranges.length = us.length →
    nvec.length = us.length → (∀ n ∈ nvec, 2 ≤ n) →
    List.Forall₂ (· < ·) (selectAll (nvec.map getActions) ranges us) nvec := by
  induction nvec with
  | nil => intros; exact List.Forall₂.nil
  | cons n ns ih =>
    intro ranges us h1 h2 h3
    cases us with
    | nil => cases h2
    | cons u us =>
      cases ranges with
      | nil => cases h1
      | cons r rs =>
        exact List.Forall₂.cons (select_lt n (h3 n (List.mem_cons_self ..)) _ _ _)
          (ih rs us (Nat.succ.inj h1) (Nat.succ.inj h2) (fun x hx => h3 x (List.mem_cons_of_mem _ hx)))

/-- C52.  For the direct current machines: with one voltage per converter part, the discrete output stage returns an action of
the action space, for all voltages. -/
theorem c52_output_partial (sp : ActionSpace) (ranges : List (K × K)) (u : List K) (hr : ranges.length = u.length)
    (hu : u ≠ []) (hsp : (∃ n, sp = .discrete n ∧ 2 ≤ n) ∨ ∃ nvec, sp = .multi nvec ∧ nvec.length = u.length ∧
      ∀ n ∈ nvec, 2 ≤ n) :
    ∃ a, discOutput sp ranges u = .ok a ∧ Contains sp a := by
  rcases hsp with ⟨n, rfl, hn⟩ | ⟨nvec, rfl, hl, hn⟩
  · cases u with
    | nil => exact (hu rfl).elim
    | cons x us =>
      cases ranges with
      | nil => cases hr
      | cons y ys => exact ⟨_, rfl, select_lt n hn _ _ _⟩
  · refine ⟨.many (selectAll (nvec.map getActions) ranges u), ?_, selectAll_forall nvec ranges u hr hl hn⟩
    simp [discOutput, hl]

/-- C52.  Which action is taken: the one for the highest (lowest) voltage if the demanded voltage is at least (at most minus)
33 % of the width of the range, and action 0 in between.  In a one-quadrant converter the "low" action is 0, too. -/
theorem c52_levels (n : ℕ) (lo hi u : K) (h : lo < hi) :
    (discOutput (.discrete n) [(lo, hi)] [u] = .ok (.one 1) ↔ 33 / 100 * (hi - lo) ≤ u)
    ∧ (n ≠ 2 → (discOutput (.discrete n) [(lo, hi)] [u] = .ok (.one 2) ↔ u ≤ -(33 / 100 * (hi - lo)))) := by
  have hl : 0 < 33 / 100 * (hi - lo) := mul_pos (by norm_num) (by linarith)
  have e : ∀ a : ℕ, discOutput (.discrete n) [(lo, hi)] [u] = .ok (.one a) ↔ selectAction (getActions n) lo hi u = a := by
    intro a
    show Except.ok (DiscAction.one (selectAction (getActions n) lo hi u)) = _ ↔ _
    constructor
    · intro h'
      exact DiscAction.one.inj (Except.ok.inj h')
    · intro h'
      rw [h']
  constructor
  · rw [e]
    unfold selectAction getActions level
    constructor
    · intro h'
      by_contra hc
      rw [if_neg hc] at h'
      split_ifs at h'
      simp_all
    · intro h'
      rw [if_neg (by linarith), if_pos h']
  · intro hn
    rw [e]
    unfold selectAction getActions level
    constructor
    · intro h'
      by_contra hc
      rw [if_neg hc] at h'
      split_ifs at h'
      simp_all
    · intro h'
      rw [if_pos h', if_neg hn]

/-- C52 is violated for three-phase machines: with a B6 bridge every call raises a NotImplementedError, and for the
externally excited synchronous machine (bridge and excitation converter, four voltages) a ValueError. -/
theorem c52_output_violated (ranges : List (K × K)) (ua ub uc ue : K) :
    discOutput .b6 ranges [ua, ub, uc] = .error .notImplemented
    ∧ discOutput (.multi [8, 4]) ranges [ua, ub, uc, ue] = .error .value := ⟨rfl, rfl⟩

example : discOutput (.multi [4, 4]) [((-100 : ℚ), 100), (-50, 50)] [70, -40] = .ok (.many [1, 2]) := by decide +kernel

end GEM.Props
