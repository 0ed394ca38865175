import Mathlib.Analysis.SpecialFunctions.Pow.Real
import Mathlib.Topology.Order.MonotoneConvergence
import Mathlib.Topology.Instances.Real.Lemmas
import Mathlib.Topology.Algebra.Order.Field
import Mathlib.Tactic.Linarith
import Mathlib.Tactic.Ring
import Mathlib.Tactic.FieldSimp
import Mathlib.Tactic.Positivity

/-!
# A first order plant with a saturated PI controller whose integrator stops while the controller saturates

`e` is the control error, `y` the distance of the integral part to its value at rest, both at the sampling instants.  The plant shrinks
the error by `α` per step and answers to the voltage with `β`; the controller commands `p * e + y`, limited to `[-l, h]`, and integrates
`κ * e` per step, but only inside of the limits.
-/

namespace GEM.Settle

open Filter Topology

/-- one step of the loop -/
def Next (α β p κ l h : ℝ) (a b : ℝ × ℝ) : Prop :=
  (-l ≤ p * a.1 + a.2 → p * a.1 + a.2 ≤ h → b = (α * a.1 - β * (p * a.1 + a.2), a.2 + κ * a.1)) ∧
  (h < p * a.1 + a.2 → b = (α * a.1 - β * h, a.2)) ∧
  (p * a.1 + a.2 < -l → b = (α * a.1 + β * l, a.2))

/-- The constants of an overdamped loop: `v` is a real root of the characteristic equation. -/
structure Loop (α β p κ l h v : ℝ) : Prop where
  α0 : 0 < α
  α1 : α < 1
  β0 : 0 < β
  p0 : 0 < p
  κ0 : 0 < κ
  κp : κ ≤ p
  l0 : 0 < l
  h0 : 0 < h
  slow : β * p ≤ α
  v0 : 0 ≤ v
  v1 : v < 1
  root : (v - α + β * p) * (1 - v) = β * κ

variable {α β p κ l h v : ℝ}

theorem Loop.symm (L : Loop α β p κ l h v) : Loop α β p κ h l v := { L with l0 := L.h0, h0 := L.l0 }

theorem next_symm {a b : ℝ × ℝ} (n : Next α β p κ l h a b) : Next α β p κ h l (-a.1, -a.2) (-b.1, -b.2) := by
  obtain ⟨n1, n2, n3⟩ := n
  refine ⟨fun h1 h2 => ?_, fun h1 => ?_, fun h1 => ?_⟩
  · rw [n1 (by simp only at h2; linarith) (by simp only at h1; linarith)]
    exact Prod.ext (by simp only; ring) (by simp only; ring)
  · rw [n3 (by simp only at h1; linarith)]
    exact Prod.ext (by simp only; ring) rfl
  · rw [n2 (by simp only at h1; linarith)]
    exact Prod.ext (by simp only; ring) rfl

/-- The integral part stays in the limits. -/
theorem kept (L : Loop α β p κ l h v) {a b : ℝ × ℝ} (n : Next α β p κ l h a b) (ha : -l ≤ a.2 ∧ a.2 ≤ h) : -l ≤ b.2 ∧ b.2 ≤ h := by
  obtain ⟨n1, n2, n3⟩ := n
  rcases lt_or_ge h (p * a.1 + a.2) with c | c
  · rw [n2 c]; exact ha
  rcases lt_or_ge (p * a.1 + a.2) (-l) with d | d
  · rw [n3 d]; exact ha
  rw [n1 d c]
  have hk := L.κ0
  have hp := L.κp
  rcases le_total 0 a.1 with e | e
  · have h1 := mul_nonneg hk.le e
    have h2 := mul_nonneg (sub_nonneg.2 hp) e
    constructor <;> simp only <;> nlinarith [ha.1, ha.2]
  · have h1 := mul_nonneg hk.le (neg_nonneg.2 e)
    have h2 := mul_nonneg (sub_nonneg.2 hp) (neg_nonneg.2 e)
    constructor <;> simp only <;> nlinarith [ha.1, ha.2]

/-- the region that the error does not leave again: no positive error, and the integral part still above its value at rest -/
def Past (β v : ℝ) (a : ℝ × ℝ) : Prop := a.1 ≤ 0 ∧ 0 ≤ (1 - v) * a.1 + β * a.2

theorem past_kept (L : Loop α β p κ l h v) {a b : ℝ × ℝ} (n : Next α β p κ l h a b) (ha : -l ≤ a.2 ∧ a.2 ≤ h) (hp : Past β v a) :
    Past β v b := by
  obtain ⟨n1, n2, n3⟩ := n
  obtain ⟨e, q⟩ := hp
  have hv := sub_pos.2 L.v1
  have hα := L.α0
  have hβ := L.β0
  have hy : 0 ≤ a.2 := by
    by_contra c
    have c := not_le.1 c
    nlinarith [mul_nonneg hv.le (neg_nonneg.2 e), mul_pos hβ (neg_pos.2 c)]
  have hz : p * a.1 + a.2 ≤ h := by nlinarith [L.p0, ha.2]
  rcases lt_or_ge (p * a.1 + a.2) (-l) with d | d
  · rw [n3 d]
    have hg : α * (p * a.1) + β * p * l ≤ 0 := by
      have h1 : (0 : ℝ) ≤ α * (-l - (p * a.1 + a.2)) := mul_nonneg hα.le (by linarith)
      nlinarith [mul_nonneg hα.le hy, mul_nonneg (sub_nonneg.2 L.slow) L.l0.le]
    have h1 : α * a.1 + β * l ≤ 0 := by
      by_contra c
      have c := mul_pos L.p0 (not_le.1 c)
      nlinarith
    refine ⟨h1, ?_⟩
    have h2 : a.1 ≤ α * a.1 + β * l := by nlinarith [mul_nonneg (sub_nonneg.2 L.α1.le) (neg_nonneg.2 e), mul_pos hβ L.l0]
    show 0 ≤ (1 - v) * (α * a.1 + β * l) + β * a.2
    nlinarith [mul_le_mul_of_nonneg_left h2 hv.le]
  · rw [n1 d hz]
    constructor
    · show α * a.1 - β * (p * a.1 + a.2) ≤ 0
      nlinarith [mul_nonneg (sub_nonneg.2 L.slow) (neg_nonneg.2 e), mul_nonneg hβ.le hy]
    · show 0 ≤ (1 - v) * (α * a.1 - β * (p * a.1 + a.2)) + β * (a.2 + κ * a.1)
      have : (1 - v) * (α * a.1 - β * (p * a.1 + a.2)) + β * (a.2 + κ * a.1) = v * ((1 - v) * a.1 + β * a.2) := by
        linear_combination -a.1 * L.root
      rw [this]
      exact mul_nonneg L.v0 q

/-- An error that becomes negative enters that region. -/
theorem crossing (L : Loop α β p κ l h v) {a b : ℝ × ℝ} (n : Next α β p κ l h a b) (ha : -l ≤ a.2 ∧ a.2 ≤ h) (e : 0 ≤ a.1) :
    0 ≤ b.1 ∨ Past β v b := by
  obtain ⟨n1, n2, n3⟩ := n
  have hv := sub_pos.2 L.v1
  have hα := L.α0
  have hβ := L.β0
  have hz : -l ≤ p * a.1 + a.2 := by nlinarith [mul_nonneg L.p0.le e, ha.1]
  rcases le_or_gt 0 b.1 with hb | hb
  · exact .inl hb
  refine .inr ⟨hb.le, ?_⟩
  rcases lt_or_ge h (p * a.1 + a.2) with c | c
  · rw [n2 c] at hb ⊢
    have hb : α * a.1 - β * h < 0 := hb
    show 0 ≤ (1 - v) * (α * a.1 - β * h) + β * a.2
    have h1 : β * h - β * (p * a.1) ≤ β * a.2 := by nlinarith
    have h2 : β * p * (α * a.1) ≤ α * (β * h) := by nlinarith [mul_nonneg (sub_nonneg.2 L.slow) (mul_nonneg hα.le e), mul_pos hα (neg_pos.2 hb)]
    have h3 : β * p * a.1 ≤ β * h := by
      by_contra c
      have := mul_pos hα (sub_pos.2 (not_le.1 c))
      nlinarith
    have h4 : 0 ≤ v * (β * h - α * a.1) := mul_nonneg L.v0 (by linarith)
    nlinarith [mul_nonneg (sub_nonneg.2 L.slow) e, mul_nonneg hα.le e]
  · rw [n1 hz c] at hb ⊢
    have hb : α * a.1 - β * (p * a.1 + a.2) < 0 := hb
    have hy : 0 ≤ a.2 := by
      by_contra c
      have := mul_pos hβ (neg_pos.2 (not_le.1 c))
      nlinarith [mul_nonneg (sub_nonneg.2 L.slow) e]
    show 0 ≤ (1 - v) * (α * a.1 - β * (p * a.1 + a.2)) + β * (a.2 + κ * a.1)
    have : (1 - v) * (α * a.1 - β * (p * a.1 + a.2)) + β * (a.2 + κ * a.1) = v * ((1 - v) * a.1 + β * a.2) := by
      linear_combination -a.1 * L.root
    rw [this]
    exact mul_nonneg L.v0 (add_nonneg (mul_nonneg hv.le e) (mul_nonneg hβ.le hy))

variable {s : ℕ → ℝ × ℝ}

theorem kept_all (L : Loop α β p κ l h v) (n : ∀ k, Next α β p κ l h (s k) (s (k + 1))) (h0 : -l ≤ (s 0).2 ∧ (s 0).2 ≤ h) :
    ∀ k, -l ≤ (s k).2 ∧ (s k).2 ≤ h
  | 0 => h0
  | k + 1 => kept L (n k) (kept_all L n h0 k)

theorem past_all (L : Loop α β p κ l h v) (n : ∀ k, Next α β p κ l h (s k) (s (k + 1))) (h0 : -l ≤ (s 0).2 ∧ (s 0).2 ≤ h) {k : ℕ}
    (hk : Past β v (s k)) (i : ℕ) : Past β v (s (k + i)) := by
  induction i with
  | zero => exact hk
  | succ i ih => exact past_kept L (n _) (kept_all L n h0 _) ih

/-- From a non-negative error on, the error stays non-negative or there is a step after which it is never positive again. -/
theorem once (L : Loop α β p κ l h v) (n : ∀ k, Next α β p κ l h (s k) (s (k + 1))) (h0 : -l ≤ (s 0).2 ∧ (s 0).2 ≤ h) (e0 : 0 ≤ (s 0).1) :
    (∀ k, 0 ≤ (s k).1) ∨ ∃ k, (∀ i < k, 0 ≤ (s i).1) ∧ ∀ i, k ≤ i → (s i).1 ≤ 0 := by
  classical
  by_cases hall : ∀ k, 0 ≤ (s k).1
  · exact .inl hall
  have hex : ∃ k, (s k).1 < 0 := by push Not at hall; exact hall
  refine .inr ⟨Nat.find hex, fun i hi => not_lt.1 (Nat.find_min hex hi), fun i hi => ?_⟩
  have hk := Nat.find_spec hex
  set k := Nat.find hex with hkdef
  obtain ⟨j, hj⟩ : ∃ j, k = j + 1 := by
    cases hc : k with
    | zero => rw [hc] at hk; exact absurd hk (not_lt.2 e0)
    | succ j => exact ⟨j, rfl⟩
  have hje : 0 ≤ (s j).1 := not_lt.1 (Nat.find_min hex (m := j) (by omega))
  rw [hj] at hk hi
  rcases crossing L (n j) (kept_all L n h0 j) hje with c | c
  · exact absurd hk (not_lt.2 c)
  obtain ⟨r, rfl⟩ := Nat.exists_eq_add_of_le hi
  exact (past_all L n h0 c r).1

/-- If the error is never negative, it vanishes. -/
theorem vanishes (L : Loop α β p κ l h v) (n : ∀ k, Next α β p κ l h (s k) (s (k + 1))) (h0 : -l ≤ (s 0).2 ∧ (s 0).2 ≤ h)
    (e : ∀ k, 0 ≤ (s k).1) : Tendsto (fun k => (s k).1) atTop (𝓝 0) ∧ Tendsto (fun k => (s k).2) atTop (𝓝 0) := by
  have hk := kept_all L n h0
  have hz : ∀ k, -l ≤ p * (s k).1 + (s k).2 := fun k => by nlinarith [mul_nonneg L.p0.le (e k), (hk k).1]
  have step : ∀ k, (s (k + 1)).2 = (s k).2 ∨ (s (k + 1)).2 = (s k).2 + κ * (s k).1 := fun k => by
    rcases lt_or_ge h (p * (s k).1 + (s k).2) with c | c
    · exact .inl (by rw [(n k).2.1 c])
    · exact .inr (by rw [(n k).1 (hz k) c])
  have mono : Monotone fun k => (s k).2 := monotone_nat_of_le_succ fun k => by
    rcases step k with c | c <;> rw [c]
    linarith [mul_nonneg L.κ0.le (e k)]
  have hlim := tendsto_atTop_ciSup mono ⟨h, by rintro _ ⟨k, rfl⟩; exact (hk k).2⟩
  set Y := ⨆ k, (s k).2
  have hdiff : Tendsto (fun k => (s (k + 1)).2 - (s k).2) atTop (𝓝 0) := by
    have := ((tendsto_add_atTop_iff_nat 1).2 hlim).sub hlim
    simpa using this
  have hα := L.α0
  have hβ := L.β0
  set ε := h / (α / β + κ) with hε
  have hden : 0 < α / β + κ := add_pos (div_pos hα hβ) L.κ0
  have hε0 : 0 < ε := div_pos L.h0 hden
  obtain ⟨N, hN⟩ := eventually_atTop.1 (hdiff.eventually (gt_mem_nhds (mul_pos L.κ0 hε0)))
  -- some later step is inside of the limits
  have hex : ∃ k, N ≤ k ∧ p * (s k).1 + (s k).2 ≤ h := by
    by_contra c
    push Not at c
    have fall : ∀ i : ℕ, (s (N + i)).1 ≤ (s N).1 - i * (β * h) := by
      intro i
      induction i with
      | zero => simp
      | succ i ih =>
        have := (n (N + i)).2.1 (c _ (by omega))
        rw [← add_assoc, this]
        push_cast
        have h1 := mul_nonneg (sub_nonneg.2 L.α1.le) (e (N + i))
        show α * _ - β * h ≤ _
        linarith
    obtain ⟨i, hi⟩ := exists_nat_gt ((s N).1 / (β * h))
    rw [div_lt_iff₀ (mul_pos hβ L.h0)] at hi
    linarith [fall i, e (N + i)]
  obtain ⟨k, hkN, hki⟩ := hex
  -- and so are all that follow
  have inside : ∀ i, p * (s (k + i)).1 + (s (k + i)).2 ≤ h := by
    intro i
    induction i with
    | zero => exact hki
    | succ i ih =>
      have hn := (n (k + i)).1 (hz _) ih
      have hd := hN (k + i) (by omega)
      have he := e (k + i + 1)
      rw [hn] at hd he
      have hd : (s (k + i)).2 + κ * (s (k + i)).1 - (s (k + i)).2 < κ * ε := hd
      have he : 0 ≤ α * (s (k + i)).1 - β * (p * (s (k + i)).1 + (s (k + i)).2) := he
      rw [← add_assoc, hn]
      show p * (α * (s (k + i)).1 - β * (p * (s (k + i)).1 + (s (k + i)).2)) + ((s (k + i)).2 + κ * (s (k + i)).1) ≤ h
      set x := (s (k + i)).1 with hx
      set z := p * x + (s (k + i)).2 with hzd
      have hy : (s (k + i)).2 = z - p * x := by rw [hzd]; ring
      rw [hy]
      have hx0 : 0 ≤ x := e (k + i)
      have hx1 : x < ε := lt_of_mul_lt_mul_left (by linarith) L.κ0.le
      have hzx : z ≤ α / β * x := by rw [div_mul_eq_mul_div, le_div_iff₀ hβ]; linarith
      have h1 : (1 - β * p) * z ≤ (1 - β * p) * (α / β * x) :=
        mul_le_mul_of_nonneg_left hzx (by linarith [L.slow, L.α1])
      have h2 : (1 - β * p) * (α / β * x) ≤ α / β * x := by
        have : 0 ≤ β * p * (α / β * x) := by have := L.p0; positivity
        linarith
      have h3 : (α / β + κ) * x ≤ h := by
        have := mul_le_mul_of_nonneg_left hx1.le hden.le
        rwa [hε, mul_div_cancel₀ _ hden.ne'] at this
      have h4 : 0 ≤ (1 - α) * p * x := mul_nonneg (mul_nonneg (sub_nonneg.2 L.α1.le) L.p0.le) hx0
      nlinarith
  have he : Tendsto (fun k => (s k).1) atTop (𝓝 0) := by
    rw [← tendsto_add_atTop_iff_nat k]
    have h1 : ∀ i, (s (i + k)).1 = ((s (i + k + 1)).2 - (s (i + k)).2) / κ := fun i => by
      rw [(n (i + k)).1 (hz _) (by rw [add_comm i k]; exact inside i), add_sub_cancel_left, mul_div_cancel_left₀ _ L.κ0.ne']
    have h2 := ((tendsto_add_atTop_iff_nat k).2 hdiff).div_const κ
    rw [zero_div] at h2
    exact h2.congr fun i => (h1 i).symm
  refine ⟨he, ?_⟩
  have hY : Y = 0 := by
    have h1 : Tendsto (fun i => α * (s (i + k)).1 - β * (p * (s (i + k)).1 + (s (i + k)).2)) atTop (𝓝 (α * 0 - β * (p * 0 + Y))) := by
      have a1 := (tendsto_add_atTop_iff_nat k).2 he
      have a2 := (tendsto_add_atTop_iff_nat k).2 hlim
      exact (a1.const_mul α).sub (((a1.const_mul p).add a2).const_mul β)
    have h2 : Tendsto (fun i => (s (i + k + 1)).1) atTop (𝓝 0) := by
      have := (tendsto_add_atTop_iff_nat (k + 1)).2 he
      exact this
    have h3 := tendsto_nhds_unique (h2.congr fun i => by
      rw [(n (i + k)).1 (hz _) (by rw [add_comm i k]; exact inside i)]) h1
    have h4 : β * Y = 0 := by linarith
    exact (mul_eq_zero.1 h4).resolve_left hβ.ne'
  rwa [hY] at hlim

/-- The loop comes to rest at error zero, and the error changes its sign at most once. -/
theorem settles (L : Loop α β p κ l h v) (n : ∀ k, Next α β p κ l h (s k) (s (k + 1))) (h0 : -l ≤ (s 0).2 ∧ (s 0).2 ≤ h) :
    Tendsto (fun k => (s k).1) atTop (𝓝 0) ∧ Tendsto (fun k => (s k).2) atTop (𝓝 0) ∧
    ∃ k : WithTop ℕ, (∀ i : ℕ, (i : WithTop ℕ) < k → 0 ≤ (s 0).1 * (s i).1) ∧ ∀ i : ℕ, k ≤ i → (s 0).1 * (s i).1 ≤ 0 := by
  have pos : ∀ {l h : ℝ} {s : ℕ → ℝ × ℝ}, Loop α β p κ l h v → (∀ k, Next α β p κ l h (s k) (s (k + 1))) →
      (-l ≤ (s 0).2 ∧ (s 0).2 ≤ h) → (∃ k, ∀ i, k ≤ i → 0 ≤ (s i).1) →
      Tendsto (fun k => (s k).1) atTop (𝓝 0) ∧ Tendsto (fun k => (s k).2) atTop (𝓝 0) := by
    rintro l h s L n h0 ⟨k, hk⟩
    have := vanishes (s := fun i => s (i + k)) L (fun i => by
      have := n (i + k)
      rwa [add_right_comm] at this) (by simpa using kept_all L n h0 k) (fun i => hk _ (by omega))
    exact ⟨(tendsto_add_atTop_iff_nat k).1 this.1, (tendsto_add_atTop_iff_nat k).1 this.2⟩
  have neg : ∀ {l h : ℝ} {s : ℕ → ℝ × ℝ}, Loop α β p κ l h v → (∀ k, Next α β p κ l h (s k) (s (k + 1))) →
      (-l ≤ (s 0).2 ∧ (s 0).2 ≤ h) → (∃ k, ∀ i, k ≤ i → (s i).1 ≤ 0) →
      Tendsto (fun k => (s k).1) atTop (𝓝 0) ∧ Tendsto (fun k => (s k).2) atTop (𝓝 0) := by
    rintro l h s L n h0 ⟨k, hk⟩
    have := pos (s := fun i => (-(s i).1, -(s i).2)) L.symm (fun i => next_symm (n i)) ⟨by simp; exact h0.2, by simp only; linarith [h0.1]⟩
      ⟨k, fun i hi => by simp only; linarith [hk i hi]⟩
    exact ⟨by simpa using this.1.neg, by simpa using this.2.neg⟩
  rcases le_total 0 (s 0).1 with e | e
  · rcases once L n h0 e with c | ⟨k, c1, c2⟩
    · obtain ⟨a, b⟩ := pos L n h0 ⟨0, fun i _ => c i⟩
      exact ⟨a, b, ⊤, fun i _ => mul_nonneg e (c i), fun i hi => absurd hi (by simp)⟩
    · obtain ⟨a, b⟩ := neg L n h0 ⟨k, c2⟩
      exact ⟨a, b, k, fun i hi => mul_nonneg e (c1 i (by exact_mod_cast hi)),
        fun i hi => mul_nonpos_of_nonneg_of_nonpos e (c2 i (by exact_mod_cast hi))⟩
  · have n' : ∀ i, Next α β p κ h l ((fun i => (-(s i).1, -(s i).2)) i) ((fun i => (-(s i).1, -(s i).2)) (i + 1)) := fun i => next_symm (n i)
    have h0' : -h ≤ ((fun i => (-(s i).1, -(s i).2)) 0).2 ∧ ((fun i => (-(s i).1, -(s i).2)) 0).2 ≤ l :=
      ⟨by simp; exact h0.2, by simp only; linarith [h0.1]⟩
    rcases once L.symm n' h0' (by simp only; linarith) with c | ⟨k, c1, c2⟩
    · obtain ⟨a, b⟩ := neg L n h0 ⟨0, fun i _ => by have := c i; simp only at this; linarith⟩
      exact ⟨a, b, ⊤, fun i _ => mul_nonneg_of_nonpos_of_nonpos e (by have := c i; simp only at this; linarith),
        fun i hi => absurd hi (by simp)⟩
    · have c1' : ∀ i < k, (s i).1 ≤ 0 := fun i hi => by have := c1 i hi; simp only at this; linarith
      have c2' : ∀ i, k ≤ i → 0 ≤ (s i).1 := fun i hi => by have := c2 i hi; simp only at this; linarith
      obtain ⟨a, b⟩ := pos L n h0 ⟨k, c2'⟩
      exact ⟨a, b, k, fun i hi => mul_nonneg_of_nonpos_of_nonpos e (c1' i (by exact_mod_cast hi)),
        fun i hi => mul_nonpos_of_nonpos_of_nonneg e (c2' i (by exact_mod_cast hi))⟩

/-- A real root exists if the damping is at least the critical one. -/
theorem root_exists {α β p κ : ℝ} (hα1 : α < 1) (hβ : 0 < β) (hp : 0 < p) (hκ : 0 < κ) (hs : β * p ≤ α)
    (hd : 4 * (β * κ) ≤ (1 - α + β * p) ^ 2) : ∃ v, 0 ≤ v ∧ v < 1 ∧ (v - α + β * p) * (1 - v) = β * κ := by
  have hg : 0 < β * p := mul_pos hβ hp
  set D := (1 - α + β * p) ^ 2 - 4 * (β * κ) with hD
  have hD0 : 0 ≤ D := by rw [hD]; linarith
  have hsq := Real.sq_sqrt hD0
  have hs0 := Real.sqrt_nonneg D
  have hlt : Real.sqrt D < 1 - α + β * p := by
    rw [Real.sqrt_lt' (by linarith)]
    rw [hD]
    nlinarith [mul_pos hβ hκ]
  refine ⟨(1 + α - β * p - Real.sqrt D) / 2, by linarith, by linarith, ?_⟩
  rw [hD] at hsq
  nlinarith

end GEM.Settle
