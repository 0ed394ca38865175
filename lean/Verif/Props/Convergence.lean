import Mathlib.Analysis.Calculus.MeanValue
import Mathlib.Analysis.SpecialFunctions.ExpDeriv
import Mathlib.Analysis.SpecialFunctions.Exp
import Verif.Proofs.Motors
import Verif.Props.Alias
import Verif.Props.Invariance

/-!
# C103: more sub-steps of the Euler solver make the result more accurate
-/

set_option linter.unusedSectionVars false

namespace GEM.Props

open GEM GEM.Motor GEM.Load GEM.Sys GEM.Solver GEM.Spec Set

noncomputable section

variable {E G : Type*} [NormedAddCommGroup E] [NormedSpace ℝ E] [NormedAddCommGroup G] [NormedSpace ℝ G]

/-- Lipschitz on every ball around the origin. -/
def LipBdd (F : E → G) : Prop := ∀ R : ℝ, ∃ L : ℝ, 0 ≤ L ∧ ∀ x y, ‖x‖ ≤ R → ‖y‖ ≤ R → ‖F x - F y‖ ≤ L * ‖x - y‖

/-! ## Convergence for locally Lipschitz autonomous equations -/

theorem eulerIter_last (F : E → E) (h : ℝ) (n : ℕ) : ∀ (t : ℝ) (y : E),
    eulerIter (fun _ y => F y) h (n + 1) t y
      = eulerIter (fun _ y => F y) h n t y + h • F (eulerIter (fun _ y => F y) h n t y) := by
  induction n with
  | zero => intro t y; rfl
  | succ n ih =>
    intro t y
    rw [eulerIter, ih]
    rfl

/-- the error of one step -/
theorem local_error {F : E → E} {y : ℝ → E} {t0 t1 L B : ℝ} (hL : 0 ≤ L) (hB : 0 ≤ B) (hc : ContinuousOn y (Icc t0 t1))
    (hy : ∀ t ∈ Ico t0 t1, HasDerivWithinAt y (F (y t)) (Ici t) t)
    (hlip : ∀ s ∈ Icc t0 t1, ∀ t ∈ Icc t0 t1, ‖F (y s) - F (y t)‖ ≤ L * ‖y s - y t‖)
    (hb : ∀ t ∈ Icc t0 t1, ‖F (y t)‖ ≤ B) {t h : ℝ} (h0 : t0 ≤ t) (hh : 0 ≤ h) (h1 : t + h ≤ t1) :
    ‖y (t + h) - (y t + h • F (y t))‖ ≤ L * B * h ^ 2 := by
  have hsub : Icc t (t + h) ⊆ Icc t0 t1 := fun s hs => ⟨h0.trans hs.1, hs.2.trans h1⟩
  have hsub' : Ico t (t + h) ⊆ Ico t0 t1 := fun s hs => ⟨h0.trans hs.1, hs.2.trans_le h1⟩
  have hmt : t ∈ Icc t0 t1 := hsub ⟨le_rfl, by linarith⟩
  have hgrow : ∀ s ∈ Icc t (t + h), ‖y s - y t‖ ≤ B * (s - t) :=
    norm_image_sub_le_of_norm_deriv_right_le_segment (hc.mono hsub) (fun s hs => hy s (hsub' hs))
      (fun s hs => hb s (hsub ⟨hs.1, hs.2.le⟩))
  have key := norm_image_sub_le_of_norm_deriv_right_le_segment (f := fun s => y s - (s - t) • F (y t))
    (f' := fun s => F (y s) - F (y t)) (a := t) (b := t + h) (C := L * B * h) ?_ ?_ ?_ (t + h) ⟨by linarith, le_rfl⟩
  · have e : y (t + h) - (t + h - t) • F (y t) - (y t - (t - t) • F (y t)) = y (t + h) - (y t + h • F (y t)) := by
      simp only [add_sub_cancel_left, sub_self, zero_smul, sub_zero]
      abel
    rw [e] at key
    calc _ ≤ L * B * h * (t + h - t) := key
      _ = L * B * h ^ 2 := by ring
  · exact (hc.mono hsub).sub (by fun_prop)
  · intro s hs
    have h2 : HasDerivWithinAt (fun s : ℝ => (s - t) • F (y t)) ((1 : ℝ) • F (y t)) (Ici s) s :=
      (((hasDerivAt_id s).sub_const t).smul_const (F (y t))).hasDerivWithinAt
    rw [one_smul] at h2
    exact (hy s (hsub' hs)).sub h2
  · intro s hs
    have hs' : s ∈ Icc t (t + h) := ⟨hs.1, hs.2.le⟩
    calc ‖F (y s) - F (y t)‖ ≤ L * ‖y s - y t‖ := hlip s (hsub hs') t hmt
      _ ≤ L * (B * (s - t)) := mul_le_mul_of_nonneg_left (hgrow s hs') hL
      _ ≤ L * (B * h) := by
        apply mul_le_mul_of_nonneg_left _ hL
        exact mul_le_mul_of_nonneg_left (by linarith [hs.2]) hB
      _ = L * B * h := by ring

/-- a number of Euler steps from a bounded set stays in a bounded set -/
theorem eulerIter_bounded {F : E → E} (hF : LipBdd F) (h : ℝ) (n : ℕ) : ∀ R : ℝ, ∃ R' : ℝ, ∀ t x, ‖x‖ ≤ R →
    ‖eulerIter (fun _ y => F y) h n t x‖ ≤ R' := by
  induction n with
  | zero => exact fun R => ⟨R, fun t x hx => hx⟩
  | succ n ih =>
    intro R
    obtain ⟨L, hL, hlip⟩ := hF R
    obtain ⟨R', hR'⟩ := ih (R + |h| * (‖F 0‖ + L * R))
    refine ⟨R', fun t x hx => hR' _ _ ?_⟩
    have hR : 0 ≤ R := (norm_nonneg x).trans hx
    have h1 := hlip x 0 hx (by rw [norm_zero]; exact hR)
    rw [sub_zero] at h1
    have h2 := norm_le_insert' (F x) (F 0)
    have h3 := mul_le_mul_of_nonneg_left hx hL
    refine (norm_add_le _ _).trans (add_le_add hx ?_)
    rw [norm_smul, Real.norm_eq_abs]
    exact mul_le_mul_of_nonneg_left (by linarith) (abs_nonneg h)

/-- Convergence also from start states with an error of this kind. -/
theorem euler_converges {F : E → E} (hF : LipBdd F) {y : ℝ → E} {t0 t1 : ℝ} (ht : t0 ≤ t1) (hcont : ContinuousOn y (Icc t0 t1))
    (hy : ∀ t ∈ Ico t0 t1, HasDerivWithinAt y (F (y t)) (Ici t) t) (K : ℝ) (hK : 0 ≤ K) :
    ∃ C : ℝ, 0 ≤ C ∧ ∀ s : Euler ℝ E, s.t = t0 → 1 ≤ s.nsteps → ‖s.y - y t0‖ ≤ K / s.nsteps →
      ∃ z, (s.integrate (fun _ x => F x) t1).2 = .ok z ∧ ‖z - y t1‖ ≤ C / s.nsteps := by
  obtain ⟨R0, hR0⟩ := isCompact_Icc.exists_bound_of_continuousOn hcont
  obtain ⟨L, hL, hlip⟩ := hF (max R0 0 + 1)
  have hyR : ∀ t ∈ Icc t0 t1, ‖y t‖ ≤ max R0 0 + 1 := fun t h => by
    linarith [hR0 t h, le_max_left R0 0]
  set B := ‖F 0‖ + L * (max R0 0 + 1) with hBdef
  have hR1 : 0 ≤ max R0 0 + 1 := by linarith [le_max_right R0 0]
  have hB : 0 ≤ B := add_nonneg (norm_nonneg _) (mul_nonneg hL hR1)
  have hb : ∀ t ∈ Icc t0 t1, ‖F (y t)‖ ≤ B := by
    intro t h
    have h1 := hlip (y t) 0 (hyR t h) (by rw [norm_zero]; exact hR1)
    rw [sub_zero] at h1
    have h2 := norm_le_insert' (F (y t)) (F 0)
    have h3 := mul_le_mul_of_nonneg_left (hyR t h) hL
    rw [hBdef]
    linarith
  set T := t1 - t0 with hT
  have hT0 : 0 ≤ T := by rw [hT]; linarith
  set M := (K + L * B * T ^ 2) * Real.exp (T * L) with hM
  have hM0 : 0 ≤ M := by positivity
  let res : ℕ → E → E := fun n x => eulerIter (fun _ x => F x) (T / n) n t0 x
  have big : ∀ n : ℕ, 1 ≤ n → M ≤ n → ∀ x, ‖x - y t0‖ ≤ K / n → ‖res n x - y t1‖ ≤ M / n := by
    intro n hn hMn x hx
    have hn0 : (0 : ℝ) < n := by exact_mod_cast hn
    set h := T / n with hh
    have hh0 : 0 ≤ h := div_nonneg hT0 hn0.le
    have hnh : n * h = T := by rw [hh]; field_simp
    have hKn : 0 ≤ K / n := div_nonneg hK hn0.le
    have bound : ∀ k : ℕ, k ≤ n → (K / n + k * (L * B * h ^ 2)) * (1 + h * L) ^ k ≤ M / n := by
      intro k hk
      have hk' : (k : ℝ) ≤ n := by exact_mod_cast hk
      have hpow : (1 + h * L) ^ k ≤ Real.exp (T * L) := by
        calc (1 + h * L) ^ k ≤ Real.exp (h * L) ^ k := by
              apply pow_le_pow_left₀ (by positivity)
              linarith [Real.add_one_le_exp (h * L)]
          _ = Real.exp (k * (h * L)) := by rw [← Real.exp_nat_mul]
          _ ≤ Real.exp (T * L) := by
              apply Real.exp_le_exp.2
              rw [← hnh]
              have : (k : ℝ) * h ≤ n * h := mul_le_mul_of_nonneg_right hk' hh0
              nlinarith
      calc (K / n + k * (L * B * h ^ 2)) * (1 + h * L) ^ k ≤ (K / n + n * (L * B * h ^ 2)) * Real.exp (T * L) := by
            apply mul_le_mul _ hpow (by positivity) (by positivity)
            have := mul_le_mul_of_nonneg_right hk' (by positivity : 0 ≤ L * B * h ^ 2)
            linarith
        _ = M / n := by rw [hM, hh]; field_simp
    have step : ∀ k : ℕ, k ≤ n →
        ‖eulerIter (fun _ x => F x) h k t0 x - y (t0 + k * h)‖ ≤ (K / n + k * (L * B * h ^ 2)) * (1 + h * L) ^ k := by
      intro k
      induction k with
      | zero => intro _; simpa [eulerIter] using hx
      | succ k ih =>
        intro hk
        have hk' : (k : ℝ) ≤ n := by exact_mod_cast (Nat.le_of_succ_le hk)
        have hkn : ((k : ℝ) + 1) ≤ n := by exact_mod_cast hk
        have ihk := ih (Nat.le_of_succ_le hk)
        set e := eulerIter (fun _ x => F x) h k t0 x with he
        have hsmall : (K / n + (k : ℝ) * (L * B * h ^ 2)) * (1 + h * L) ^ k ≤ 1 :=
          (bound k (Nat.le_of_succ_le hk)).trans (by rw [div_le_one hn0]; exact hMn)
        have hmem : t0 + k * h ∈ Icc t0 t1 := by
          refine ⟨by have : 0 ≤ (k : ℝ) * h := by positivity
                     linarith, ?_⟩
          have : (k : ℝ) * h ≤ n * h := mul_le_mul_of_nonneg_right hk' hh0
          rw [hnh] at this
          linarith
        have hend : t0 + k * h + h ≤ t1 := by
          have : ((k : ℝ) + 1) * h ≤ n * h := mul_le_mul_of_nonneg_right hkn hh0
          rw [hnh] at this
          linarith
        have heR : ‖e‖ ≤ max R0 0 + 1 := by
          have h1 := norm_le_insert' e (y (t0 + k * h))
          have h2 := hR0 _ hmem
          have h3 := le_max_left R0 0
          have h4 : ‖e - y (t0 + k * h)‖ ≤ 1 := ihk.trans hsmall
          linarith
        have hF1 := hlip e (y (t0 + k * h)) heR (hyR _ hmem)
        have hloc := local_error hL hB hcont hy (fun s hs t ht => hlip _ _ (hyR s hs) (hyR t ht)) hb hmem.1 hh0 hend
        rw [eulerIter_last, ← he]
        have hc : t0 + ((k + 1 : ℕ) : ℝ) * h = t0 + k * h + h := by push_cast; ring
        rw [hc]
        have split : e + h • F e - y (t0 + k * h + h)
            = (e - y (t0 + k * h)) + h • (F e - F (y (t0 + k * h)))
              - (y (t0 + k * h + h) - (y (t0 + k * h) + h • F (y (t0 + k * h)))) := by
          rw [smul_sub]; abel
        rw [split]
        have n1 := norm_sub_le ((e - y (t0 + k * h)) + h • (F e - F (y (t0 + k * h))))
          (y (t0 + k * h + h) - (y (t0 + k * h) + h • F (y (t0 + k * h))))
        have n2 := norm_add_le (e - y (t0 + k * h)) (h • (F e - F (y (t0 + k * h))))
        have n3 : ‖h • (F e - F (y (t0 + k * h)))‖ ≤ h * (L * ‖e - y (t0 + k * h)‖) := by
          rw [norm_smul, Real.norm_eq_abs, abs_of_nonneg hh0]
          exact mul_le_mul_of_nonneg_left hF1 hh0
        have hone : (1 : ℝ) ≤ (1 + h * L) ^ (k + 1) := one_le_pow₀ (by nlinarith [mul_nonneg hh0 hL])
        have hD : 0 ≤ L * B * h ^ 2 := by positivity
        calc _ ≤ ‖e - y (t0 + k * h)‖ * (1 + h * L) + L * B * h ^ 2 := by nlinarith
          _ ≤ (K / n + k * (L * B * h ^ 2)) * (1 + h * L) ^ k * (1 + h * L) + L * B * h ^ 2 * (1 + h * L) ^ (k + 1) := by
            apply add_le_add
            · exact mul_le_mul_of_nonneg_right ihk (by positivity)
            · exact le_mul_of_one_le_right hD hone
          _ = (K / n + ((k + 1 : ℕ) : ℝ) * (L * B * h ^ 2)) * (1 + h * L) ^ (k + 1) := by push_cast; ring
    have hfin := (step n le_rfl).trans (bound n le_rfl)
    have e1 : t0 + n * h = t1 := by rw [hnh, hT]; ring
    rw [e1] at hfin
    exact hfin
  -- for the finitely many smaller numbers of sub-steps, results from bounded sets are bounded
  choose R' hR' using fun m : ℕ => eulerIter_bounded hF (T / m) m (‖y t0‖ + K)
  let few : ℕ → ℝ := fun m => m * (|R' m| + ‖y t1‖)
  have hfew : ∀ m, 0 ≤ few m := fun m => mul_nonneg (Nat.cast_nonneg m) (add_nonneg (abs_nonneg _) (norm_nonneg _))
  have hsum : 0 ≤ ∑ m ∈ Finset.range (Nat.ceil M + 1), few m := Finset.sum_nonneg fun m _ => hfew m
  refine ⟨M + ∑ m ∈ Finset.range (Nat.ceil M + 1), few m, by linarith, ?_⟩
  intro s hst hn hsy
  have hn0 : (0 : ℝ) < s.nsteps := by exact_mod_cast hn
  refine ⟨res s.nsteps s.y, ?_, ?_⟩
  · rw [c24_autonomous_partial F s t1 hn, hst]
  rcases le_or_gt M s.nsteps with h | h
  · refine (big _ hn h _ hsy).trans ?_
    apply div_le_div_of_nonneg_right _ hn0.le
    linarith
  · rw [le_div_iff₀ hn0]
    have hm : s.nsteps ∈ Finset.range (Nat.ceil M + 1) := by
      rw [Finset.mem_range]
      have : s.nsteps ≤ Nat.ceil M := by exact_mod_cast h.le.trans (Nat.le_ceil M)
      omega
    have h1 := Finset.single_le_sum (f := few) (fun m _ => hfew m) hm
    have hn1 : (1 : ℝ) ≤ s.nsteps := by exact_mod_cast hn
    have h2 : ‖s.y‖ ≤ ‖y t0‖ + K := by
      have a1 := norm_le_insert' s.y (y t0)
      have a2 : K / s.nsteps ≤ K := div_le_self hK hn1
      linarith
    have h3 : ‖res s.nsteps s.y - y t1‖ ≤ |R' s.nsteps| + ‖y t1‖ :=
      (norm_sub_le _ _).trans (add_le_add_left ((hR' s.nsteps t0 s.y h2).trans (le_abs_self _)) _)
    have h4 : ‖res s.nsteps s.y - y t1‖ * s.nsteps ≤ few s.nsteps := by
      rw [mul_comm]
      exact mul_le_mul_of_nonneg_left h3 hn0.le
    linarith

/-- C103 for autonomous right-hand sides that are Lipschitz on bounded sets: the error of the Euler solver at the end of an
interval is at most a constant through the number of sub-steps.  Missing: right-hand sides that depend on time, see
`c103_external_violated`. -/
theorem c103_partial {F : E → E} (hF : LipBdd F) {y : ℝ → E} {t0 t1 : ℝ} (ht : t0 ≤ t1) (hc : ContinuousOn y (Icc t0 t1))
    (hy : ∀ t ∈ Ico t0 t1, HasDerivWithinAt y (F (y t)) (Ici t) t) :
    ∃ C : ℝ, ∀ s : Euler ℝ E, s.t = t0 → s.y = y t0 → 1 ≤ s.nsteps →
      ∃ z, (s.integrate (fun _ x => F x) t1).2 = .ok z ∧ ‖z - y t1‖ ≤ C / s.nsteps := by
  obtain ⟨C, -, hC⟩ := euler_converges hF ht hc hy 0 le_rfl
  exact ⟨C, fun s h1 h2 h3 => hC s h1 h3 (by rw [h2]; simp)⟩

/-! ## The systems -/

theorem LipBdd.const (c : G) : LipBdd (fun _ : E => c) := fun R => ⟨0, le_rfl, fun x y _ _ => by simp⟩

theorem LipBdd.add {f g : E → G} (hf : LipBdd f) (hg : LipBdd g) : LipBdd (fun x => f x + g x) := by
  intro R
  obtain ⟨L, hL, h1⟩ := hf R
  obtain ⟨M, hM, h2⟩ := hg R
  refine ⟨L + M, add_nonneg hL hM, fun x y hx hy => ?_⟩
  have e : f x + g x - (f y + g y) = (f x - f y) + (g x - g y) := by abel
  rw [e, add_mul]
  exact (norm_add_le _ _).trans (add_le_add (h1 x y hx hy) (h2 x y hx hy))

theorem LipBdd.mul {f g : E → ℝ} (hf : LipBdd f) (hg : LipBdd g) : LipBdd (fun x => f x * g x) := by
  intro R
  obtain ⟨L, hL, h1⟩ := hf R
  obtain ⟨M, hM, h2⟩ := hg R
  set A := ‖f 0‖ + L * |R| with hA
  set B := ‖g 0‖ + M * |R| with hB
  have hA0 : 0 ≤ A := by positivity
  have hB0 : 0 ≤ B := by positivity
  refine ⟨L * B + A * M, by positivity, fun x y hx hy => ?_⟩
  have hR : 0 ≤ R := (norm_nonneg x).trans hx
  have hg1 : ‖g x‖ ≤ B := by
    have a1 := h2 x 0 hx (by rw [norm_zero]; exact hR)
    rw [sub_zero] at a1
    have a2 := norm_le_insert' (g x) (g 0)
    have a3 : M * ‖x‖ ≤ M * |R| := mul_le_mul_of_nonneg_left (hx.trans (le_abs_self R)) hM
    rw [hB]; linarith
  have hf1 : ‖f y‖ ≤ A := by
    have a1 := h1 y 0 hy (by rw [norm_zero]; exact hR)
    rw [sub_zero] at a1
    have a2 := norm_le_insert' (f y) (f 0)
    have a3 : L * ‖y‖ ≤ L * |R| := mul_le_mul_of_nonneg_left (hy.trans (le_abs_self R)) hL
    rw [hA]; linarith
  have e : f x * g x - f y * g y = (f x - f y) * g x + f y * (g x - g y) := by ring
  rw [e]
  refine (norm_add_le _ _).trans ?_
  rw [norm_mul, norm_mul]
  have b1 : ‖f x - f y‖ * ‖g x‖ ≤ L * ‖x - y‖ * B := mul_le_mul (h1 x y hx hy) hg1 (norm_nonneg _) (by positivity)
  have b2 : ‖f y‖ * ‖g x - g y‖ ≤ A * (M * ‖x - y‖) := mul_le_mul hf1 (h2 x y hx hy) (norm_nonneg _) hA0
  calc _ ≤ L * ‖x - y‖ * B + A * (M * ‖x - y‖) := add_le_add b1 b2
    _ = (L * B + A * M) * ‖x - y‖ := by ring

theorem LipBdd.neg {f : E → ℝ} (hf : LipBdd f) : LipBdd (fun x => -f x) := by
  simpa using (LipBdd.const (-1 : ℝ)).mul hf

theorem LipBdd.sub {f g : E → ℝ} (hf : LipBdd f) (hg : LipBdd g) : LipBdd (fun x => f x - g x) := by
  simpa [sub_eq_add_neg] using hf.add hg.neg

theorem LipBdd.div_const {f : E → ℝ} (hf : LipBdd f) (c : ℝ) : LipBdd (fun x => f x / c) := by
  simpa [div_eq_mul_inv] using hf.mul (LipBdd.const c⁻¹)

/-- composition with a function of slope at most 1 -/
theorem LipBdd.comp {f : E → ℝ} (hf : LipBdd f) {φ : ℝ → ℝ} (hφ : ∀ a b, |φ a - φ b| ≤ |a - b|) : LipBdd (fun x => φ (f x)) := by
  intro R
  obtain ⟨L, hL, h⟩ := hf R
  exact ⟨L, hL, fun x y hx hy => (hφ _ _).trans (h x y hx hy)⟩

theorem LipBdd.proj {k : ℕ} (i : Fin k) : LipBdd (fun x : Fin k → ℝ => x i) :=
  fun _ => ⟨1, zero_le_one, fun x y _ _ => by rw [one_mul]; exact norm_le_pi_norm (x - y) i⟩

theorem LipBdd.pi {k : ℕ} {f : E → Fin k → ℝ} (hf : ∀ i, LipBdd (fun x => f x i)) : LipBdd f := by
  intro R
  choose L hL h using fun i => hf i R
  refine ⟨∑ i, L i, Finset.sum_nonneg fun i _ => hL i, fun x y hx hy => ?_⟩
  refine (pi_norm_le_iff_of_nonneg (mul_nonneg (Finset.sum_nonneg fun i _ => hL i) (norm_nonneg _))).2 fun i => ?_
  refine (h i x y hx hy).trans ?_
  apply mul_le_mul_of_nonneg_right _ (norm_nonneg _)
  exact Finset.single_le_sum (f := L) (fun i _ => hL i) (Finset.mem_univ i)

theorem LipBdd.fst {k : ℕ} (i : Fin k) : LipBdd (fun p : (Fin k → ℝ) × G => p.1 i) :=
  fun _ => ⟨1, zero_le_one, fun x y _ _ => by
    rw [one_mul]; exact (norm_le_pi_norm (x.1 - y.1) i).trans (norm_fst_le (x - y))⟩

theorem LipBdd.snd {k : ℕ} (i : Fin k) : LipBdd (fun p : E × (Fin k → ℝ) => p.2 i) :=
  fun _ => ⟨1, zero_le_one, fun x y _ _ => by
    rw [one_mul]; exact (norm_le_pi_norm (x.2 - y.2) i).trans (norm_snd_le (x - y))⟩

/-- a function of state and input, for one input -/
theorem LipBdd.fix {H : E × G → E} (h : LipBdd H) (u : G) : LipBdd fun x => H (x, u) := by
  intro R
  obtain ⟨L, hL0, hl⟩ := h (max R ‖u‖)
  refine ⟨L, hL0, fun x y hx hy => ?_⟩
  have := hl (x, u) (y, u) (by rw [Prod.norm_mk]; exact max_le_max hx le_rfl) (by rw [Prod.norm_mk]; exact max_le_max hy le_rfl)
  simpa [Prod.norm_def] using this

/-- polynomial expressions in states and inputs -/
macro "lip" : tactic => `(tactic| repeat (first
  | exact LipBdd.const _ | exact LipBdd.fst _ | exact LipBdd.snd _ | apply LipBdd.add | apply LipBdd.sub | apply LipBdd.mul
  | apply LipBdd.div_const | apply LipBdd.neg))

theorem lip_friction {f : E → ℝ} (hf : LipBdd f) (a b c k : ℝ) : LipBdd (fun x => friction a b c k (f x)) := by
  unfold friction
  refine LipBdd.add (LipBdd.add ((LipBdd.const c).mul (hf.mul ?_)) ((LipBdd.const b).mul hf)) ?_
  · exact hf.comp (φ := fun a => |a|) fun a b => abs_abs_sub_abs_le_abs_sub a b
  · refine ((LipBdd.const k).mul hf).comp (φ := fun v => max (-a) (min a v)) fun v w => ?_
    refine (abs_max_sub_max_le_max _ _ _ _).trans ?_
    rw [sub_self, abs_zero]
    refine max_le (abs_nonneg _) ((abs_min_sub_min_le_max _ _ _ _).trans ?_)
    rw [sub_self, abs_zero]
    exact max_le (abs_nonneg _) le_rfl

/-- The loads: a polynomial static load with the moments of inertia `rs` of the rotors, a constant speed, a speed that follows a
function of time. -/
inductive AnyLoad where
  | poly (a b c j tau : ℝ) (rs : List ℝ)
  | const
  | external (profile : ℝ → ℝ) (tau : ℝ)

namespace AnyLoad

/-- the mechanical ODE of a load -/
def mech : AnyLoad → ℝ → (Fin 1 → ℝ) → ℝ → Fin 1 → ℝ
  | poly a b c j tau rs => polyMech a b c j tau rs
  | const => constMech
  | external profile tau => fun t l T => ![externalOde profile tau t (l 0) T]

/-- admissible parameters -/
def Ok : AnyLoad → Prop
  | poly a b c j tau rs => PolyParams a b c j tau rs
  | const => True
  | external profile tau => Continuous profile ∧ 0 < tau

/-- loads whose equation does not depend on time -/
def Static : AnyLoad → Prop
  | external _ _ => False
  | _ => True

/-- the part of the equation that depends on time only -/
def drift : AnyLoad → ℝ → ℝ
  | external profile tau, t => 1 / tau * profile (t + tau)
  | _, _ => 0

/-- the rest -/
def rest : AnyLoad → ℝ → ℝ → ℝ
  | poly a b c j tau rs, w, T => (polyOf a b c j tau rs).mechanicalOde 0 w T
  | const, _, _ => 0
  | external _ tau, w, _ => -(1 / tau * w)

theorem mech_eq (l : AnyLoad) (t : ℝ) (w : Fin 1 → ℝ) (T : ℝ) : l.mech t w T 0 = l.rest (w 0) T + l.drift t := by
  cases l with
  | poly a b c j tau rs => simp [mech, rest, drift, polyMech, Poly.mechanicalOde]
  | const => simp [mech, rest, drift, constMech, constOde]
  | external p tau => simp [mech, rest, drift, externalOde]; ring

theorem lip_rest {l : AnyLoad} (hl : l.Ok) {f g : E → ℝ} (hf : LipBdd f) (hg : LipBdd g) : LipBdd fun x => l.rest (f x) (g x) := by
  cases l with
  | poly a b c j tau rs =>
    have hp : PolyParams a b c j tau rs := hl
    simp only [rest, Poly.mechanicalOde, c25_friction hp]
    exact (hg.sub (lip_friction hf _ _ _ _)).div_const _
  | const => exact LipBdd.const 0
  | external p tau => exact ((LipBdd.const (1 / tau)).mul hf).neg

theorem continuous_drift {l : AnyLoad} (hl : l.Ok) : Continuous l.drift := by
  cases l with
  | poly a b c j tau rs => exact continuous_const
  | const => exact continuous_const
  | external p tau =>
    have hp : Continuous p := hl.1
    unfold drift
    fun_prop

theorem static_drift {l : AnyLoad} (hs : l.Static) (t : ℝ) : l.drift t = 0 := by
  cases l with
  | external p tau => exact absurd hs id
  | _ => rfl

end AnyLoad

/-- the part of the equations of a drive that does not depend on time -/
def core {m : ℕ} {U : Type} (torque : (Fin m → ℝ) → ℝ) (elOde : (Fin m → ℝ) → U → ℝ → Fin m → ℝ) (load : AnyLoad) (u : U)
    (x : Fin (1 + m) → ℝ) : Fin (1 + m) → ℝ :=
  Fin.append (fun _ : Fin 1 => load.rest (x (Fin.castAdd m 0)) (torque fun i => x (Fin.natAdd 1 i)))
    (elOde (fun i => x (Fin.natAdd 1 i)) u (x (Fin.castAdd m 0)))

/-- the part that depends on time only -/
def driftOf {m : ℕ} (load : AnyLoad) (t : ℝ) : Fin (1 + m) → ℝ := Fin.append (fun _ : Fin 1 => load.drift t) 0

theorem system_split {m : ℕ} {U : Type} (torque : (Fin m → ℝ) → ℝ) (elOde : (Fin m → ℝ) → U → ℝ → Fin m → ℝ) (load : AnyLoad)
    (t : ℝ) (x : Fin (1 + m) → ℝ) (u : U) :
    systemEquation load.mech torque elOde 0 none t x u = core torque elOde load u x + driftOf load t := by
  funext i
  refine Fin.addCases (fun i => ?_) (fun i => ?_) i
  · have : i = 0 := Subsingleton.elim _ _
    subst this
    simp only [systemEquation, core, driftOf, Pi.add_apply, Fin.append_left, load.mech_eq]
  · simp [systemEquation, core, driftOf]

theorem continuous_driftOf {m : ℕ} {load : AnyLoad} (hl : load.Ok) : Continuous (driftOf (m := m) load) := by
  refine continuous_pi fun i => ?_
  have := load.continuous_drift hl
  refine Fin.addCases (fun i => ?_) (fun i => ?_) i
  · simpa [driftOf] using this
  · simp [driftOf]; fun_prop

theorem static_driftOf {m : ℕ} {load : AnyLoad} (hs : load.Static) (t : ℝ) : driftOf (m := m) load t = 0 := by
  funext i
  refine Fin.addCases (fun i => ?_) (fun i => ?_) i
  · simp [driftOf, load.static_drift hs]
  · simp [driftOf]

/-- motor equations and torque that are Lipschitz on bounded sets, as functions of the state of the drive and the input -/
structure LipMotor {m l : ℕ} (torque : (Fin m → ℝ) → ℝ) (elOde : (Fin m → ℝ) → (Fin l → ℝ) → ℝ → Fin m → ℝ) : Prop where
  torque : LipBdd fun p : (Fin (1 + m) → ℝ) × (Fin l → ℝ) => torque fun i => p.1 (Fin.natAdd 1 i)
  ode : ∀ i, LipBdd fun p : (Fin (1 + m) → ℝ) × (Fin l → ℝ) => elOde (fun i => p.1 (Fin.natAdd 1 i)) p.2 (p.1 (Fin.castAdd m 0)) i

/-- A drive with such a motor and any load. -/
theorem lip_core {m l : ℕ} {torque : (Fin m → ℝ) → ℝ} {elOde : (Fin m → ℝ) → (Fin l → ℝ) → ℝ → Fin m → ℝ}
    (hm : LipMotor torque elOde) {load : AnyLoad} (hl : load.Ok) :
    LipBdd fun p : (Fin (1 + m) → ℝ) × (Fin l → ℝ) => core torque elOde load p.2 p.1 := by
  apply LipBdd.pi
  intro i
  refine Fin.addCases (fun i => ?_) (fun i => ?_) i
  · simp only [core, Fin.append_left]
    exact load.lip_rest hl (LipBdd.fst _) hm.torque
  · simp only [core, Fin.append_right]
    exact hm.ode i

/-- The equations of a drive, as the solver sees them in an interval with constant input: with any scratch arrays. -/
def drive {m : ℕ} {U : Type} (torque : (Fin m → ℝ) → ℝ) (elOde : (Fin m → ℝ) → U → ℝ → Fin m → ℝ) (load : AnyLoad)
    (scratch : Option (Fin (1 + m) → ℝ)) (u : U) (t : ℝ) (x : Fin (1 + m) → ℝ) : Fin (1 + m) → ℝ :=
  systemEquation load.mech torque elOde 0 scratch t x u

theorem drive_static {m : ℕ} {U : Type} (torque : (Fin m → ℝ) → ℝ) (elOde : (Fin m → ℝ) → U → ℝ → Fin m → ℝ) {load : AnyLoad}
    (hs : load.Static) (scratch : Option (Fin (1 + m) → ℝ)) (u : U) :
    drive torque elOde load scratch u = fun _ x => core torque elOde load u x := by
  funext t x
  unfold drive
  rw [systemEquation_scratch, system_split, static_driftOf hs, add_zero]

/-- the Euler solver converges to the motion of this drive -/
def Converges {m : ℕ} (f : ℝ → (Fin m → ℝ) → Fin m → ℝ) : Prop :=
  ∀ (y : ℝ → Fin m → ℝ) (t0 t1 : ℝ), t0 ≤ t1 → ContinuousOn y (Icc t0 t1) →
    (∀ t ∈ Ico t0 t1, HasDerivWithinAt y (f t (y t)) (Ici t) t) →
    ∃ C : ℝ, ∀ s : Euler ℝ (Fin m → ℝ), s.t = t0 → s.y = y t0 → 1 ≤ s.nsteps →
      ∃ z, (s.integrate f t1).2 = .ok z ∧ ∀ i, |z i - y t1 i| ≤ C / s.nsteps

theorem drive_converges {m l : ℕ} {torque : (Fin m → ℝ) → ℝ} {elOde : (Fin m → ℝ) → (Fin l → ℝ) → ℝ → Fin m → ℝ}
    (hm : LipMotor torque elOde) {load : AnyLoad} (hl : load.Ok) (hs : load.Static) (u : Fin l → ℝ)
    (scratch : Option (Fin (1 + m) → ℝ)) : Converges (drive torque elOde load scratch u) := by
  intro y t0 t1 ht hc hy
  rw [drive_static torque elOde hs] at hy ⊢
  obtain ⟨C, hC⟩ := c103_partial ((lip_core hm hl).fix u) ht hc hy
  refine ⟨C, fun s h1 h2 h3 => ?_⟩
  obtain ⟨z, hz, hd⟩ := hC s h1 h2 h3
  exact ⟨z, hz, fun i => (norm_le_pi_norm (z - y t1) i).trans hd⟩

theorem extEx_lip (mp : DcParams ℝ) : LipMotor (dcTorque mp) (dcOde mp) where
  torque := by unfold dcTorque; lip
  ode i := by fin_cases i <;> simp [dcOde_eq] <;> lip

theorem shunt_lip (mp : DcParams ℝ) : LipMotor (dcTorque mp) (shuntOde mp) where
  torque := by unfold dcTorque; lip
  ode i := by fin_cases i <;> simp [shuntOde, dcOde_eq] <;> lip

theorem series_lip (mp : DcParams ℝ) : LipMotor (seriesTorque mp) (seriesOde mp) where
  torque := by unfold seriesTorque dcTorque; simp; lip
  ode i := by fin_cases i; simp [seriesOde_eq]; lip

theorem permEx_lip (mp : PermExParams ℝ) : LipMotor (permExTorque mp) (permExOde mp) where
  torque := by unfold permExTorque; lip
  ode i := by fin_cases i; simp [permExOde_eq]; lip

theorem pmsm_lip (mp : SyncParams ℝ) : LipMotor (pmsmTorque mp) (syncOde (pmsmConstants mp)) where
  torque := by unfold pmsmTorque; lip
  ode i := by fin_cases i <;> simp [pmsmOde_eq] <;> lip

theorem synrm_lip (mp : SyncParams ℝ) : LipMotor (synrmTorque mp) (syncOde (synrmConstants mp)) where
  torque := by unfold synrmTorque; lip
  ode i := by fin_cases i <;> simp [synrmOde_eq] <;> lip

theorem eesm_lip (mp : EesmParams ℝ) : LipMotor (eesmTorque mp) (eesmOde mp) where
  torque := by unfold eesmTorque; lip
  ode i := by fin_cases i <;> simp [eesmOde_eq] <;> lip

theorem scim_lip (mp : ImParams ℝ) : LipMotor (imTorque mp) (scimOde mp) where
  torque := by unfold imTorque; lip
  ode i := by fin_cases i <;> simp [scimOde, imOde_eq] <;> lip

/-- a doubly fed motor with the four voltages in one row -/
def dfimOde4 (mp : ImParams ℝ) (x : Fin 5 → ℝ) (u : Fin 4 → ℝ) (w : ℝ) : Fin 5 → ℝ := imOde mp x !![u 0, u 1; u 2, u 3] w

/-- the four voltages in one row -/
def inRow (v : Matrix (Fin 2) (Fin 2) ℝ) : Fin 4 → ℝ := ![v 0 0, v 0 1, v 1 0, v 1 1]

theorem dfimOde4_inRow (mp : ImParams ℝ) (x : Fin 5 → ℝ) (v : Matrix (Fin 2) (Fin 2) ℝ) (w : ℝ) :
    dfimOde4 mp x (inRow v) w = imOde mp x v w := by
  unfold dfimOde4 inRow
  congr 1
  ext i j
  fin_cases i <;> fin_cases j <;> rfl

theorem dfim_lip (mp : ImParams ℝ) : LipMotor (imTorque mp) (dfimOde4 mp) where
  torque := by unfold imTorque; lip
  ode i := by fin_cases i <;> simp [dfimOde4, imOde_eq] <;> lip

variable {load : AnyLoad} (hl : load.Ok) (hst : load.Static)
include hl hst

/-- C103 for drives with a DC motor. -/
theorem c103_dc_partial (mp : DcParams ℝ) (pe : PermExParams ℝ) (u : Fin 1 → ℝ) (v : Fin 2 → ℝ) (s2 s3) :
    Converges (drive (dcTorque mp) (dcOde mp) load s3 v) ∧
    Converges (drive (dcTorque mp) (shuntOde mp) load s3 u) ∧
    Converges (drive (seriesTorque mp) (seriesOde mp) load s2 u) ∧
    Converges (drive (permExTorque pe) (permExOde pe) load s2 u) :=
  ⟨drive_converges (extEx_lip mp) hl hst v s3, drive_converges (shunt_lip mp) hl hst u s3,
    drive_converges (series_lip mp) hl hst u s2, drive_converges (permEx_lip pe) hl hst u s2⟩

/-- C103 for drives with a synchronous motor. -/
theorem c103_sync_partial (mp : SyncParams ℝ) (ee : EesmParams ℝ) (u : Fin 2 → ℝ) (v : Fin 3 → ℝ) (s4 s5) :
    Converges (drive (pmsmTorque mp) (syncOde (pmsmConstants mp)) load s4 u) ∧
    Converges (drive (synrmTorque mp) (syncOde (synrmConstants mp)) load s4 u) ∧
    Converges (drive (eesmTorque ee) (eesmOde ee) load s5 v) :=
  ⟨drive_converges (pmsm_lip mp) hl hst u s4, drive_converges (synrm_lip mp) hl hst u s4, drive_converges (eesm_lip ee) hl hst v s5⟩

/-- C103 for drives with an induction motor. -/
theorem c103_induction_partial (mp : ImParams ℝ) (u : Fin 2 → ℝ) (v : Matrix (Fin 2) (Fin 2) ℝ) (s6) :
    Converges (drive (imTorque mp) (scimOde mp) load s6 u) ∧
    Converges (drive (imTorque mp) (imOde mp) load s6 v) := by
  refine ⟨drive_converges (scim_lip mp) hl hst u s6, ?_⟩
  have := drive_converges (dfim_lip mp) hl hst (inRow v) s6
  have e : drive (imTorque mp) (dfimOde4 mp) load s6 (inRow v) = drive (imTorque mp) (imOde mp) load s6 v := by
    funext t x
    unfold drive
    simp only [systemEquation, dfimOde4_inRow]
  rwa [e] at this

omit hl hst

/-! ## Time dependent right-hand sides -/

theorem ramp_iter (v tau d h : ℝ) (ht : tau ≠ 0) (k : ℕ) : ∀ t e : ℝ,
    eulerIter (fun τ w => 1 / tau * (v * (τ + tau) + d - w)) h k t (v * t + e)
      = v * (t + k * h) + d - (d - e) * (1 - h / tau) ^ k := by
  induction k with
  | zero => intro t e; simp [eulerIter]; ring
  | succ k ih =>
    intro t e
    have e1 : v * t + e + h • (1 / tau * (v * (t + tau) + d - (v * t + e))) = v * (t + h) + (e + h / tau * (d - e)) := by
      rw [smul_eq_mul]; field_simp; ring
    rw [eulerIter, e1, ih]
    push_cast
    ring

/-- C103 is violated with an `ExternalSpeedLoad`, whose equation depends on time: for a speed profile that is a ramp with slope
`v`, the exact speed is the profile; one sub-step gives it exactly, every higher number of sub-steps misses it by more than
`v * tau * (1 - 1/e)`. -/
theorem c103_external_violated (v tau t0 : ℝ) (hv : 0 < v) (ht : 0 < tau) (torque : ℝ → ℝ → ℝ) (n : ℕ) (hn : 2 ≤ n) :
    let f := fun t w => externalOde (fun t => v * t) tau t w (torque t w)
    (∀ t, HasDerivAt (fun t => v * t) (f t (v * t)) t) ∧
    ((⟨t0, v * t0, 1⟩ : Euler ℝ ℝ).integrate f (t0 + tau)).2 = .ok (v * (t0 + tau)) ∧
    ∃ z, ((⟨t0, v * t0, n⟩ : Euler ℝ ℝ).integrate f (t0 + tau)).2 = .ok z ∧
      v * tau * (1 - Real.exp (-1)) < z - v * (t0 + tau) := by
  intro f
  refine ⟨fun t => ?_, ?_, ?_⟩
  · refine ((hasDerivAt_id t).const_mul v).congr_deriv ?_
    simp only [f, externalOde]
    field_simp
    ring
  · rw [c24_one_step _ _ _ rfl]
    simp only [eulerIter, f, externalOde, smul_eq_mul]
    congr 1
    field_simp
    ring
  · rw [c24_nsteps_shifted _ _ _ hn]
    refine ⟨_, rfl, ?_⟩
    have hn0 : (0 : ℝ) < n := by
      have : 0 < n := by omega
      exact_mod_cast this
    have hn1 : (1 : ℝ) ≤ n := by
      have : 1 ≤ n := by omega
      exact_mod_cast this
    have e : (fun (τ y : ℝ) => f (τ + tau + tau / n) y)
        = fun τ w => 1 / tau * (v * (τ + tau) + v * (tau + tau / n) - w) := by
      funext τ w
      simp only [f, externalOde]
      ring
    simp only [add_sub_cancel_left]
    rw [e]
    have e2 := ramp_iter v tau (v * (tau + tau / n)) (tau / n) ht.ne' n t0 0
    rw [add_zero] at e2
    rw [e2]
    have e3 : (n : ℝ) * (tau / n) = tau := by field_simp
    have e4 : tau / n / tau = 1 / n := by field_simp
    rw [e3, e4, sub_zero]
    have hq : (1 - 1 / (n : ℝ)) ^ n ≤ Real.exp (-1) := by
      have h1 : 0 ≤ 1 - 1 / (n : ℝ) := by
        rw [sub_nonneg, div_le_one hn0]; exact hn1
      calc (1 - 1 / (n : ℝ)) ^ n ≤ Real.exp (-(1 / n)) ^ n := by
            apply pow_le_pow_left₀ h1
            linarith [Real.add_one_le_exp (-(1 / (n : ℝ)))]
        _ = Real.exp (n * -(1 / n)) := by rw [← Real.exp_nat_mul]
        _ = Real.exp (-1) := by congr 1; field_simp
    have hexp : Real.exp (-1) < 1 := by
      rw [Real.exp_lt_one_iff]; norm_num
    have hgap : v * tau < v * (tau + tau / n) := by
      apply mul_lt_mul_of_pos_left _ hv
      have : 0 < tau / n := div_pos ht hn0
      linarith
    have h5 : v * tau * (1 - Real.exp (-1)) < v * (tau + tau / n) * (1 - (1 - 1 / (n : ℝ)) ^ n) := by
      have h6 : 0 < 1 - Real.exp (-1) := by linarith
      calc _ < v * (tau + tau / n) * (1 - Real.exp (-1)) := mul_lt_mul_of_pos_right hgap h6
        _ ≤ _ := mul_le_mul_of_nonneg_left (by linarith) (by positivity)
    linarith

/-- `c103_partial` for decaying exponentials. -/
example : ∃ C : ℝ, ∀ s : Euler ℝ ℝ, s.t = 0 → s.y = 1 → 1 ≤ s.nsteps →
    ∃ z, (s.integrate (fun _ x => -x) 2).2 = .ok z ∧ ‖z - Real.exp (-2)‖ ≤ C / s.nsteps := by
  have hid : LipBdd (fun x : ℝ => x) := fun _ => ⟨1, zero_le_one, fun x y _ _ => by rw [one_mul]⟩
  have := c103_partial (F := fun x : ℝ => -x) hid.neg (y := fun t => Real.exp (-t)) (t0 := 0) (t1 := 2) (by norm_num) (by fun_prop) ?_
  · simpa using this
  · intro t _
    have h := ((hasDerivAt_id t).neg.exp).hasDerivWithinAt (s := Ici t)
    simpa using h

end

end GEM.Props
