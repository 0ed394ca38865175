import Mathlib.Analysis.ODE.ExistUnique
import Verif.Props.Stability

/-!
# C106: every drive has exactly one motion
-/

set_option linter.unusedSectionVars false

namespace GEM.Props

open GEM GEM.Motor GEM.Load GEM.Sys GEM.Spec GEM.Solver Set Filter Topology

noncomputable section

/-! ## Ordinary differential equations

Right-hand sides `F x + e t`, Lipschitz on bounded sets in the state and continuous in time. -/

variable {k : ℕ}

/-- Two motions from the same state agree. -/
theorem motion_unique {F : (Fin k → ℝ) → Fin k → ℝ} (hF : LipBdd F) {e : ℝ → Fin k → ℝ} {x y : ℝ → Fin k → ℝ} {a b : ℝ}
    (hx : ContinuousOn x (Icc a b)) (hx' : ∀ t ∈ Ico a b, HasDerivWithinAt x (F (x t) + e t) (Ici t) t)
    (hy : ContinuousOn y (Icc a b)) (hy' : ∀ t ∈ Ico a b, HasDerivWithinAt y (F (y t) + e t) (Ici t) t) (h0 : x a = y a) :
    EqOn x y (Icc a b) := by
  obtain ⟨R1, h1⟩ := isCompact_Icc.exists_bound_of_continuousOn hx
  obtain ⟨R2, h2⟩ := isCompact_Icc.exists_bound_of_continuousOn hy
  obtain ⟨L, hL, hlip⟩ := hF (max R1 R2)
  refine ODE_solution_unique_of_mem_Icc_right (v := fun t x => F x + e t) (s := fun _ => {z | ‖z‖ ≤ max R1 R2}) (K := ⟨L, hL⟩) ?_ hx
    hx' ?_ hy hy' ?_ h0
  · intro t _
    refine LipschitzOnWith.of_dist_le_mul fun p hp q hq => ?_
    rw [dist_eq_norm, dist_eq_norm, add_sub_add_right_eq_sub]
    exact hlip p q hp hq
  · intro t ht
    exact (h1 t ⟨ht.1, ht.2.le⟩).trans (le_max_left _ _)
  · intro t ht
    exact (h2 t ⟨ht.1, ht.2.le⟩).trans (le_max_right _ _)

/-- a derivative on an interval, to the right of an inner point -/
theorem right_of_Icc {E : Type*} [NormedAddCommGroup E] [NormedSpace ℝ E] {x : ℝ → E} {d : E} {a b t : ℝ} (ht : t ∈ Ico a b)
    (h : HasDerivWithinAt x d (Icc a b) t) : HasDerivWithinAt x d (Ici t) t := by
  refine h.mono_of_mem_nhdsWithin ?_
  have : Icc t b ∈ 𝓝[Ici t] t := Icc_mem_nhdsGE ht.2
  exact mem_of_superset this fun z hz => ⟨ht.1.trans hz.1, hz.2⟩

/-- every component cut to `[-R, R]` -/
def cut (R : ℝ) (x : Fin k → ℝ) : Fin k → ℝ := fun i => max (-R) (min R (x i))

theorem cut_norm {R : ℝ} (hR : 0 ≤ R) (x : Fin k → ℝ) : ‖cut R x‖ ≤ R := by
  refine (pi_norm_le_iff_of_nonneg hR).2 fun i => ?_
  rw [Real.norm_eq_abs, abs_le]
  exact ⟨le_max_left _ _, max_le (by linarith) (min_le_left _ _)⟩

theorem cut_lip (R : ℝ) (x y : Fin k → ℝ) : ‖cut R x - cut R y‖ ≤ ‖x - y‖ := by
  refine (pi_norm_le_iff_of_nonneg (norm_nonneg _)).2 fun i => ?_
  have h1 : |max (-R) (min R (x i)) - max (-R) (min R (y i))| ≤ |x i - y i| := by
    refine (abs_max_sub_max_le_max _ _ _ _).trans ?_
    rw [sub_self, abs_zero]
    refine max_le (abs_nonneg _) ((abs_min_sub_min_le_max _ _ _ _).trans ?_)
    rw [sub_self, abs_zero]
    exact max_le (abs_nonneg _) le_rfl
  exact h1.trans (norm_le_pi_norm (x - y) i)

theorem cut_self {R : ℝ} {x : Fin k → ℝ} (hx : ‖x‖ ≤ R) : cut R x = x := by
  funext i
  have h := abs_le.1 ((norm_le_pi_norm x i).trans hx)
  unfold cut
  rw [min_eq_right h.2, max_eq_right h.1]

/-- Existence on an interval, given a bound no motion can leave. -/
theorem motion_exists_on {F : (Fin k → ℝ) → Fin k → ℝ} (hF : LipBdd F) {e : ℝ → Fin k → ℝ} (he : Continuous e) (x0 : Fin k → ℝ) {T R : ℝ} (hT : 0 ≤ T)
    (apr : ∀ τ ∈ Icc 0 T, ∀ x : ℝ → Fin k → ℝ, x 0 = x0 → ContinuousOn x (Icc 0 τ) →
      (∀ t ∈ Ico 0 τ, HasDerivWithinAt x (F (x t) + e t) (Ici t) t) → ‖x τ‖ < R) :
    ∃ x : ℝ → Fin k → ℝ, x 0 = x0 ∧ ∀ t ∈ Icc 0 T, HasDerivWithinAt x (F (x t) + e t) (Icc 0 T) t := by
  have hx0 : ‖x0‖ < R := by
    have := apr 0 ⟨le_rfl, hT⟩ (fun _ => x0) rfl continuousOn_const (fun t ht => absurd ht (by simp))
    exact this
  have hR : 0 ≤ R := (norm_nonneg _).trans hx0.le
  obtain ⟨L, hL, hlip⟩ := hF R
  obtain ⟨D, hD⟩ := isCompact_Icc.exists_bound_of_continuousOn (s := Icc 0 T) he.continuousOn
  have hD0 : 0 ≤ D := (norm_nonneg _).trans (hD 0 ⟨le_rfl, hT⟩)
  set G : (Fin k → ℝ) → Fin k → ℝ := fun x => F (cut R x) with hG
  set M := ‖F 0‖ + L * R + D with hM
  have hM0 : 0 ≤ M := by positivity
  have hGlip : ∀ x y, ‖G x - G y‖ ≤ L * ‖x - y‖ := fun x y =>
    (hlip _ _ (cut_norm hR x) (cut_norm hR y)).trans (mul_le_mul_of_nonneg_left (cut_lip R x y) hL)
  have hGb : ∀ t ∈ Icc 0 T, ∀ x, ‖G x + e t‖ ≤ M := by
    intro t ht x
    have h1 := hlip (cut R x) 0 (cut_norm hR x) (by rw [norm_zero]; exact hR)
    rw [sub_zero] at h1
    have h2 := norm_le_insert' (G x) (F 0)
    have h3 := mul_le_mul_of_nonneg_left (cut_norm hR x) hL
    have h1' : ‖G x - F 0‖ ≤ L * ‖cut R x‖ := h1
    have h4 := norm_add_le (G x) (e t)
    have h5 := hD t ht
    rw [hM]
    linarith
  have hpl : IsPicardLindelof (fun t x => G x + e t) (tmin := 0) (tmax := T) ⟨0, le_rfl, hT⟩ x0 ⟨M * T, mul_nonneg hM0 hT⟩ 0 ⟨M, hM0⟩ ⟨L, hL⟩ := by
    refine ⟨fun t _ => ?_, fun x _ => (continuous_const.add he).continuousOn, fun t ht x _ => hGb t ht x, ?_⟩
    · refine LipschitzOnWith.of_dist_le_mul fun p _ q _ => ?_
      rw [dist_eq_norm, dist_eq_norm, add_sub_add_right_eq_sub]
      exact hGlip p q
    · simp [hT]
      exact le_rfl
  obtain ⟨x, hx, hd⟩ := hpl.exists_eq_forall_mem_Icc_hasDerivWithinAt₀
  have hx : x 0 = x0 := hx
  have hc : ContinuousOn x (Icc 0 T) := fun t ht => (hd t ht).continuousWithinAt
  have inside : ∀ t ∈ Icc 0 T, ‖x t‖ < R := by
    by_contra hcon
    push Not at hcon
    obtain ⟨t1, ht1, hR1⟩ := hcon
    have hclosed : IsClosed (Icc 0 T ∩ (fun t => ‖x t‖) ⁻¹' Ici R) := hc.norm.preimage_isClosed_of_isClosed isClosed_Icc isClosed_Ici
    have hcomp : IsCompact (Icc 0 T ∩ (fun t => ‖x t‖) ⁻¹' Ici R) := isCompact_Icc.of_isClosed_subset hclosed inter_subset_left
    obtain ⟨τ, hτ, hmin⟩ := hcomp.exists_isLeast ⟨t1, ht1, hR1⟩
    have before : ∀ t ∈ Ico 0 τ, ‖x t‖ < R := by
      intro t ht
      by_contra hn
      push Not at hn
      have := hmin ⟨⟨ht.1, ht.2.le.trans hτ.1.2⟩, hn⟩
      exact absurd ht.2 (not_lt.mpr this)
    have := apr τ hτ.1 x hx (hc.mono fun t ht => ⟨ht.1, ht.2.trans hτ.1.2⟩) fun t ht => by
      have h1 := right_of_Icc ⟨ht.1, ht.2.trans_le hτ.1.2⟩ (hd t ⟨ht.1, ht.2.le.trans hτ.1.2⟩)
      have e' : G (x t) = F (x t) := by rw [hG]; simp only [cut_self (before t ht).le]
      rw [e'] at h1
      exact h1
    exact absurd hτ.2 (not_le.mpr this)
  refine ⟨x, hx, fun t ht => ?_⟩
  have h1 := hd t ht
  have e' : G (x t) = F (x t) := by rw [hG]; simp only [cut_self (inside t ht).le]
  rw [e'] at h1
  exact h1

/-- Existence for all times. -/
theorem motion_exists {F : (Fin k → ℝ) → Fin k → ℝ} (hF : LipBdd F) {e : ℝ → Fin k → ℝ} (he : Continuous e) (x0 : Fin k → ℝ)
    (apr : ∀ T, 0 ≤ T → ∃ R, ∀ τ ∈ Icc 0 T, ∀ x : ℝ → Fin k → ℝ, x 0 = x0 → ContinuousOn x (Icc 0 τ) →
      (∀ t ∈ Ico 0 τ, HasDerivWithinAt x (F (x t) + e t) (Ici t) t) → ‖x τ‖ < R) :
    ∃ x : ℝ → Fin k → ℝ, x 0 = x0 ∧ ∀ t, 0 ≤ t → HasDerivWithinAt x (F (x t) + e t) (Ici 0) t := by
  have hex : ∀ n : ℕ, ∃ x : ℝ → Fin k → ℝ, x 0 = x0 ∧
      ∀ t ∈ Icc (0 : ℝ) (n + 1), HasDerivWithinAt x (F (x t) + e t) (Icc 0 ((n : ℝ) + 1)) t := by
    intro n
    have hT : (0 : ℝ) ≤ n + 1 := by positivity
    obtain ⟨R, hR⟩ := apr (n + 1) hT
    exact motion_exists_on hF he x0 hT hR
  choose x hx hd using hex
  have hc : ∀ n, ContinuousOn (x n) (Icc 0 ((n : ℝ) + 1)) := fun n t ht => (hd n t ht).continuousWithinAt
  have agree : ∀ m n : ℕ, ∀ t, 0 ≤ t → t ≤ (m : ℝ) + 1 → t ≤ (n : ℝ) + 1 → x m t = x n t := by
    intro m n t h0 hm hn
    refine motion_unique hF (e := e) (a := 0) (b := t) ((hc m).mono fun z hz => ⟨hz.1, hz.2.trans hm⟩) ?_
      ((hc n).mono fun z hz => ⟨hz.1, hz.2.trans hn⟩) ?_ ((hx m).trans (hx n).symm) ⟨h0, le_rfl⟩
    · exact fun z hz => right_of_Icc ⟨hz.1, hz.2.trans_le hm⟩ (hd m z ⟨hz.1, hz.2.le.trans hm⟩)
    · exact fun z hz => right_of_Icc ⟨hz.1, hz.2.trans_le hn⟩ (hd n z ⟨hz.1, hz.2.le.trans hn⟩)
  set s : ℝ → Fin k → ℝ := fun t => x ⌊t⌋₊ t with hs
  have hsx : ∀ n : ℕ, ∀ t ∈ Icc (0 : ℝ) (n + 1), s t = x n t := fun n t ht =>
    agree _ _ t ht.1 (Nat.lt_floor_add_one t).le ht.2
  refine ⟨s, by simp [hs, hx], fun t ht => ?_⟩
  have hlt : t < ((⌊t⌋₊ + 1 : ℕ) : ℝ) + 1 := by
    have := Nat.lt_floor_add_one t
    push_cast
    linarith
  have hmem : Icc (0 : ℝ) (((⌊t⌋₊ + 1 : ℕ) : ℝ) + 1) ∈ 𝓝[Ici 0] t := by
    have h1 : Iic (((⌊t⌋₊ + 1 : ℕ) : ℝ) + 1) ∈ 𝓝 t := Iic_mem_nhds hlt
    have h2 := inter_mem_nhdsWithin (Ici (0 : ℝ)) h1
    exact mem_of_superset h2 fun z hz => ⟨hz.1, hz.2⟩
  have h1 := (hd (⌊t⌋₊ + 1) t ⟨ht, hlt.le⟩).mono_of_mem_nhdsWithin hmem
  have h2 := hsx (⌊t⌋₊ + 1) t ⟨ht, hlt.le⟩
  rw [← h2] at h1
  refine h1.congr_of_eventuallyEq ?_ h2
  filter_upwards [hmem] with z hz
  exact hsx _ z hz

/-! ## Drives -/

/-- at most proportional to `1 + W` -/
def Dom {m : ℕ} (W f : (Fin m → ℝ) → ℝ) : Prop := ∃ c : ℝ, 0 ≤ c ∧ ∀ x, |f x| ≤ c * (1 + W x)

section dom

variable {m : ℕ} {W f g : (Fin m → ℝ) → ℝ}

theorem Dom.add (hf : Dom W f) (hg : Dom W g) : Dom W fun x => f x + g x := by
  obtain ⟨c, hc, h1⟩ := hf
  obtain ⟨d, hd, h2⟩ := hg
  refine ⟨c + d, by positivity, fun x => ?_⟩
  have := abs_add_le (f x) (g x)
  have := h1 x
  have := h2 x
  linarith

theorem Dom.const_mul (hf : Dom W f) (r : ℝ) : Dom W fun x => r * f x := by
  obtain ⟨c, hc, h1⟩ := hf
  refine ⟨|r| * c, by positivity, fun x => ?_⟩
  rw [abs_mul, mul_assoc]
  exact mul_le_mul_of_nonneg_left (h1 x) (abs_nonneg r)

/-- what is needed of a motor for its drives to have motions: `W` is the field energy, `P` the input power, `cur` the currents
and fluxes; the other states are angles -/
structure Sound {l : ℕ} (torque : (Fin m → ℝ) → ℝ) (elOde : (Fin m → ℝ) → (Fin l → ℝ) → ℝ → Fin m → ℝ)
    (W loss : (Fin m → ℝ) → ℝ) (P : (Fin m → ℝ) → (Fin l → ℝ) → ℝ) (cur : List (Fin m)) : Prop where
  lip : LipMotor torque elOde
  balance : LocalBalance torque elOde W loss P
  cont : Continuous W
  coercive : ∃ μ : ℝ, 0 < μ ∧ ∀ x, ∀ i ∈ cur, μ * x i ^ 2 ≤ W x
  nonneg : ∀ x, 0 ≤ W x
  loss_nonneg : ∀ x, 0 ≤ loss x
  torque_le : Dom W torque
  power_le : ∀ u, Dom W fun x => P x u
  angles : ∀ i, i ∈ cur ∨ ∃ p : ℝ, ∀ x u w, elOde x u w i = p * w

end dom

variable {m l : ℕ} {torque : (Fin m → ℝ) → ℝ} {elOde : (Fin m → ℝ) → (Fin l → ℝ) → ℝ → Fin m → ℝ} {W loss : (Fin m → ℝ) → ℝ}
  {P : (Fin m → ℝ) → (Fin l → ℝ) → ℝ} {cur : List (Fin m)} {load : AnyLoad}

/-- Gronwall's inequality on an interval -/
theorem grows_le {f f' : ℝ → ℝ} {K ε T τ : ℝ} (hK : 0 ≤ K) (hε : 0 ≤ ε) (h0 : 0 ≤ f 0) (hτ : τ ≤ T)
    (hf : ContinuousOn f (Icc 0 τ)) (hf' : ∀ t ∈ Ico 0 τ, HasDerivWithinAt f (f' t) (Ici t) t)
    (hb : ∀ t ∈ Ico 0 τ, f' t ≤ K * f t + ε) : ∀ t ∈ Icc 0 τ, f t ≤ gronwallBound (f 0) K ε T := by
  intro t ht
  have h1 := le_gronwallBound_of_liminf_deriv_right_le hf (fun x hx r hr => (hf' x hx).liminf_right_slope_le hr) le_rfl hb t ht
  rw [sub_zero] at h1
  exact h1.trans (gronwallBound_mono h0 hε hK (ht.2.trans hτ))

/-- On every bounded interval the field energy and the speed of a drive have bounds. -/
theorem energy_apriori (hs : Sound torque elOde W loss P cur) (hl : load.Ok) (u : Fin l → ℝ) (x0 : Fin (1 + m) → ℝ) (t0 : ℝ) {T : ℝ}
    (hT : 0 ≤ T) :
    ∃ M B, 0 ≤ B ∧ ∀ τ ∈ Icc 0 T, ∀ x : ℝ → Fin (1 + m) → ℝ, x 0 = x0 → ContinuousOn x (Icc 0 τ) →
      (∀ t ∈ Ico 0 τ, HasDerivWithinAt x (systemEquation load.mech torque elOde 0 none (t0 + t) (x t) u) (Ici t) t) →
      ∀ t ∈ Icc 0 τ, W (motorPart (x t)) ≤ M ∧ |speed (x t)| ≤ B := by
  obtain ⟨cT, hcT, hTq⟩ := hs.torque_le
  obtain ⟨cP, hcP, hPw⟩ := hs.power_le u
  have hcont : ∀ (τ : ℝ) (x : ℝ → Fin (1 + m) → ℝ), ContinuousOn x (Icc 0 τ) →
      ContinuousOn (fun t => W (motorPart (x t))) (Icc 0 τ) ∧ ContinuousOn (fun t => speed (x t)) (Icc 0 τ) := by
    intro τ x hc
    have h1 : ContinuousOn (fun t => motorPart (x t)) (Icc 0 τ) :=
      continuousOn_pi.2 fun i => (continuousOn_pi.1 hc) (Fin.natAdd 1 i)
    exact ⟨hs.cont.comp_continuousOn h1, (continuousOn_pi.1 hc) (Fin.castAdd m 0)⟩
  have cases : (∃ K : ℝ, 0 ≤ K ∧ ∀ w T : ℝ, |load.rest w T| ≤ K * |w|) ∨ ∃ a b c j tau rs, load = .poly a b c j tau rs := by
    cases load with
    | const => exact Or.inl ⟨0, le_rfl, fun w T => by simp [AnyLoad.rest]⟩
    | external p tau =>
      have ht : 0 < tau := hl.2
      refine Or.inl ⟨1 / tau, by positivity, fun w T => ?_⟩
      simp only [AnyLoad.rest]
      rw [abs_neg, abs_mul, abs_of_pos (by positivity : (0 : ℝ) < 1 / tau)]
    | poly a b c j tau rs => exact Or.inr ⟨a, b, c, j, tau, rs, rfl⟩
  rcases cases with ⟨K, hK0, hK⟩ | ⟨a, b, c, j, tau, rs, rfl⟩
  -- loads that prescribe the speed
  · obtain ⟨D, hD⟩ := isCompact_Icc.exists_bound_of_continuousOn (s := Icc 0 T)
      (f := fun t => load.drift (t0 + t)) ((load.continuous_drift hl).comp (by fun_prop)).continuousOn
    have hD0 : 0 ≤ D := (norm_nonneg _).trans (hD 0 ⟨le_rfl, hT⟩)
    set B := gronwallBound |speed x0| K D T with hB
    have hB0 : 0 ≤ B := by
      have := gronwallBound_mono (abs_nonneg (speed x0)) hD0 hK0 hT
      rw [gronwallBound_x0] at this
      exact (abs_nonneg _).trans this
    refine ⟨gronwallBound (W (motorPart x0)) (cP + cT * B) (cP + cT * B) T, B, hB0, ?_⟩
    intro τ hτ x hx0 hc hder
    have hcomp : ∀ t ∈ Ico 0 τ, ∀ i, HasDerivWithinAt (fun t => x t i)
        (systemEquation load.mech torque elOde 0 none (t0 + t) (x t) u i) (Ici t) t := fun t ht i =>
      hasDerivWithinAt_pi.1 (hder t ht) i
    have hspeed : ∀ t ∈ Icc 0 τ, |speed (x t)| ≤ B := by
      intro t ht
      have h1 := norm_le_gronwallBound_of_norm_deriv_right_le (f := fun t => speed (x t)) (δ := |speed x0|) (K := K) (ε := D)
        (hcont τ x hc).2 (fun t ht => hcomp t ht (Fin.castAdd m 0)) (by rw [hx0]; exact le_rfl) (fun t ht => by
          simp only [systemEquation, Fin.append_left, load.mech_eq]
          refine (norm_add_le _ _).trans (add_le_add (hK _ _) (hD t ⟨ht.1, ht.2.le.trans hτ.2⟩))) t ht
      rw [sub_zero] at h1
      exact h1.trans (gronwallBound_mono (abs_nonneg _) hD0 hK0 (ht.2.trans hτ.2))
    intro t ht
    refine ⟨?_, hspeed t ht⟩
    have hkB : 0 ≤ cP + cT * B := by positivity
    have h2 := grows_le (f := fun t => W (motorPart (x t))) (K := cP + cT * B) (ε := cP + cT * B) (T := T) (τ := τ) hkB hkB
      (hs.nonneg _) hτ.2 (hcont τ x hc).1
      (fun t ht => hs.balance (fun t => motorPart (x t)) u (speed (x t)) (Ici t) t fun i => by
        have := hcomp t ht (Fin.natAdd 1 i)
        simp only [systemEquation, Fin.append_right] at this
        exact this)
      (fun t ht => by
        have a1 := (le_abs_self _).trans (hPw (motorPart (x t)))
        have a2 := hs.loss_nonneg (motorPart (x t))
        have a3 := hTq (motorPart (x t))
        have a4 := hspeed t ⟨ht.1, ht.2.le⟩
        have a5 : -(torque (motorPart (x t)) * speed (x t)) ≤ cT * (1 + W (motorPart (x t))) * B := by
          refine (neg_le_abs _).trans ?_
          rw [abs_mul]
          exact mul_le_mul a3 a4 (abs_nonneg _) (mul_nonneg hcT (by linarith [hs.nonneg (motorPart (x t))]))
        have e : (cP + cT * B) * W (motorPart (x t)) + (cP + cT * B)
            = cP * (1 + W (motorPart (x t))) + cT * (1 + W (motorPart (x t))) * B := by ring
        rw [e]
        linarith) t ht
    simp only [hx0] at h2
    exact h2
  -- polynomial loads
  · have hp : PolyParams a b c j tau rs := hl
    have hJ := total_inertia hp
    set J := j + rs.sum with hJdef
    have hst : ∀ x : Fin (1 + m) → ℝ, W (motorPart x) ≤ stored W J x := fun x => by
      have : 0 ≤ 1 / 2 * J * speed x ^ 2 := by positivity
      unfold stored
      linarith
    set M := gronwallBound (stored W J x0) cP cP T with hM
    refine ⟨M, √(2 * M / J), Real.sqrt_nonneg _, ?_⟩
    intro τ hτ x hx0 hc hder t ht
    have h1 : stored W J (x t) ≤ M := by
      have := grows_le (f := fun t => stored W J (x t)) (K := cP) (ε := cP) (T := T) (τ := τ) hcP hcP
        ((hs.nonneg _).trans (hst _)) hτ.2 ((hcont τ x hc).1.add (continuousOn_const.mul ((hcont τ x hc).2.pow 2)))
        (fun t ht => drive_balance_at hs.balance hp fun i => hasDerivWithinAt_pi.1 (hder t ht) i)
        (fun t ht => by
          have a1 := (le_abs_self _).trans (hPw (motorPart (x t)))
          have a2 := hs.loss_nonneg (motorPart (x t))
          have a3 := friction_opposes hp (speed (x t))
          have a4 := mul_le_mul_of_nonneg_left (hst (x t)) hcP
          linarith) t ht
      simp only [hx0] at this
      exact this
    refine ⟨(hst _).trans h1, Real.abs_le_sqrt ?_⟩
    rw [le_div_iff₀ hJ]
    have := hs.nonneg (motorPart (x t))
    unfold stored at h1
    linarith

/-- No motion of a drive leaves every bound in a finite time. -/
theorem drive_apriori (hs : Sound torque elOde W loss P cur) (hl : load.Ok) (u : Fin l → ℝ) (x0 : Fin (1 + m) → ℝ) (t0 : ℝ) {T : ℝ}
    (hT : 0 ≤ T) :
    ∃ R, ∀ τ ∈ Icc 0 T, ∀ x : ℝ → Fin (1 + m) → ℝ, x 0 = x0 → ContinuousOn x (Icc 0 τ) →
      (∀ t ∈ Ico 0 τ, HasDerivWithinAt x (systemEquation load.mech torque elOde 0 none (t0 + t) (x t) u) (Ici t) t) →
      ‖x τ‖ < R := by
  obtain ⟨M, B, hB, hMB⟩ := energy_apriori hs hl u x0 t0 hT
  obtain ⟨μ, hμ, hco⟩ := hs.coercive
  -- the slope of the angle, where there is one
  have hslope : ∀ i : Fin m, ∃ p : ℝ, i ∈ cur ∨ ∀ x u w, elOde x u w i = p * w := by
    intro i
    rcases hs.angles i with h | ⟨p, h⟩
    · exact ⟨0, Or.inl h⟩
    · exact ⟨p, Or.inr h⟩
  choose p hpq using hslope
  refine ⟨B + √(M / μ) + ‖x0‖ + (∑ i, |p i|) * B * T + 1, ?_⟩
  intro τ hτ x hx0 hc hder
  have hcomp : ∀ t ∈ Ico 0 τ, ∀ i, HasDerivWithinAt (fun t => x t i)
      (systemEquation load.mech torque elOde 0 none (t0 + t) (x t) u i) (Ici t) t := fun t ht i =>
    hasDerivWithinAt_pi.1 (hder t ht) i
  have hspeed : ∀ t ∈ Icc 0 τ, |speed (x t)| ≤ B := fun t ht => (hMB τ hτ x hx0 hc hder t ht).2
  have hcurb : ∀ i ∈ cur, |x τ (Fin.natAdd 1 i)| ≤ √(M / μ) := by
    intro i hi
    have h1 := (hMB τ hτ x hx0 hc hder τ ⟨hτ.1, le_rfl⟩).1
    have h2 := hco (motorPart (x τ)) i hi
    refine Real.abs_le_sqrt ?_
    rw [le_div_iff₀ hμ]
    have e : motorPart (x τ) i = x τ (Fin.natAdd 1 i) := rfl
    rw [e] at h2
    linarith
  have hang : ∀ i, (∀ x u w, elOde x u w i = p i * w) → |x τ (Fin.natAdd 1 i)| ≤ ‖x0‖ + |p i| * B * T := by
    intro i hi
    have h1 := image_norm_le_of_norm_deriv_right_le_deriv_boundary (f := fun t => x t (Fin.natAdd 1 i)) (a := 0) (b := τ)
      (B := fun t => ‖x0‖ + |p i| * B * t) (B' := fun _ => |p i| * B) ((continuousOn_pi.1 hc) _)
      (fun t ht => hcomp t ht (Fin.natAdd 1 i)) (by simp [hx0]; exact norm_le_pi_norm x0 _)
      (fun t => by
        have := ((hasDerivAt_id t).const_mul (|p i| * B)).const_add ‖x0‖
        simpa using this)
      (fun t ht => by
        simp only [systemEquation, Fin.append_right, hi]
        rw [norm_mul]
        exact mul_le_mul_of_nonneg_left (hspeed t ⟨ht.1, ht.2.le⟩) (abs_nonneg _)) (x := τ) ⟨hτ.1, le_rfl⟩
    refine h1.trans ?_
    have := mul_le_mul_of_nonneg_left hτ.2 (mul_nonneg (abs_nonneg (p i)) hB)
    linarith
  have hsum : 0 ≤ (∑ i, |p i|) * B * T := by positivity
  have hn := norm_nonneg x0
  have hq := Real.sqrt_nonneg (M / μ)
  refine lt_of_le_of_lt ((pi_norm_le_iff_of_nonneg (r := B + √(M / μ) + ‖x0‖ + (∑ i, |p i|) * B * T) (by positivity)).2 ?_)
    (by linarith)
  intro i
  refine Fin.addCases (fun i => ?_) (fun i => ?_) i
  · have : i = 0 := Subsingleton.elim _ _
    subst this
    have := hspeed τ ⟨hτ.1, le_rfl⟩
    rw [Real.norm_eq_abs]
    have e : x τ (Fin.castAdd m 0) = speed (x τ) := rfl
    rw [e]
    linarith
  · rw [Real.norm_eq_abs]
    rcases hpq i with h | h
    · have := hcurb i h
      linarith
    · have h1 := hang i h
      have h2 : |p i| * B * T ≤ (∑ i, |p i|) * B * T := by
        apply mul_le_mul_of_nonneg_right _ hT
        apply mul_le_mul_of_nonneg_right _ hB
        exact Finset.single_le_sum (f := fun i => |p i|) (fun i _ => abs_nonneg _) (Finset.mem_univ i)
      linarith

variable {U : Type}

/-- Voltages held for `tau` each. -/
def held (tau : ℝ) (u : ℕ → U) (t : ℝ) : U := u ⌊t / tau⌋₊

/-- Motions over intervals with constant inputs can be put together, in one way only. -/
theorem switched_motion {rhs : ℝ → (Fin k → ℝ) → U → Fin k → ℝ} {F : U → (Fin k → ℝ) → Fin k → ℝ} {e : ℝ → Fin k → ℝ}
    (hrhs : ∀ t x u, rhs t x u = F u x + e t) (hlip : ∀ u, LipBdd (F u))
    (hone : ∀ u t0 x0, ∃ x : ℝ → Fin k → ℝ, x 0 = x0 ∧ ∀ t, 0 ≤ t → HasDerivWithinAt x (F u (x t) + e (t0 + t)) (Ici 0) t)
    {d : ℝ} (hd : 0 < d) (u : ℕ → U) (s0 : Fin k → ℝ) :
    ∃ s : ℝ → Fin k → ℝ, s 0 = s0 ∧ Runs rhs (held d u) s ∧
      ∀ s' : ℝ → Fin k → ℝ, s' 0 = s0 → Runs rhs (held d u) s' → ∀ t, 0 ≤ t → s' t = s t := by
  choose φ hφ0 hφ using hone
  have hφc : ∀ v t0 x0, ContinuousOn (φ v t0 x0) (Ici 0) := fun v t0 x0 t ht => (hφ v t0 x0 t ht).continuousWithinAt
  let st : ℕ → Fin k → ℝ := fun n => Nat.rec s0 (fun n x => φ (u n) (n * d) x d) n
  have hst : ∀ n, st (n + 1) = φ (u n) (n * d) (st n) d := fun n => rfl
  have fl : ∀ (n : ℕ) (t : ℝ), n * d ≤ t → t < (n + 1) * d → ⌊t / d⌋₊ = n := by
    intro n t h1 h2
    have h3 : (n : ℝ) ≤ t / d := by rw [le_div_iff₀ hd]; exact h1
    have h4 : t / d < n + 1 := by rw [div_lt_iff₀ hd]; exact h2
    exact (Nat.floor_eq_iff (le_trans (Nat.cast_nonneg n) h3)).2 ⟨h3, h4⟩
  let s : ℝ → Fin k → ℝ := fun t => φ (u ⌊t / d⌋₊) (⌊t / d⌋₊ * d) (st ⌊t / d⌋₊) (t - ⌊t / d⌋₊ * d)
  have piece : ∀ (n : ℕ) (t : ℝ), t ∈ Icc (n * d) ((n + 1) * d) → s t = φ (u n) (n * d) (st n) (t - n * d) := by
    intro n t ht
    rcases lt_or_eq_of_le ht.2 with h | h
    · simp only [s, fl n t ht.1 h]
    · have h1 : ⌊t / d⌋₊ = n + 1 := by
        apply fl
        · push_cast; exact h.ge
        · rw [h]; push_cast; nlinarith
      simp only [s, h1]
      rw [hst n]
      have e1 : t - ((n + 1 : ℕ) : ℝ) * d = 0 := by rw [h]; push_cast; ring
      have e2 : t - (n : ℝ) * d = d := by rw [h]; ring
      rw [e1, e2, hφ0]
  have place : ∀ t : ℝ, 0 ≤ t → t ∈ Ico ((⌊t / d⌋₊ : ℝ) * d) (((⌊t / d⌋₊ : ℝ) + 1) * d) := by
    intro t ht
    refine ⟨?_, ?_⟩
    · have := Nat.floor_le (div_nonneg ht hd.le)
      rwa [le_div_iff₀ hd] at this
    · have := Nat.lt_floor_add_one (t / d)
      rwa [div_lt_iff₀ hd] at this
  have pieceC : ∀ n : ℕ, ContinuousOn s (Icc (n * d) ((n + 1) * d)) := by
    intro n
    have h1 : ContinuousOn (fun t => φ (u n) (n * d) (st n) (t - n * d)) (Icc (n * d) ((n + 1) * d)) := by
      refine (hφc (u n) (n * d) (st n)).comp (by fun_prop) fun t ht => ?_
      have := ht.1
      simp only [mem_Ici]
      linarith
    exact h1.congr fun t ht => piece n t ht
  have contN : ∀ n : ℕ, ContinuousOn s (Icc 0 (n * d)) := by
    intro n
    induction n with
    | zero => simp [continuousOn_singleton]
    | succ n ih =>
      have h1 := ih.union_of_isClosed (pieceC n) isClosed_Icc isClosed_Icc
      have eu : Icc 0 ((n : ℝ) * d) ∪ Icc (n * d) ((n + 1) * d) = Icc 0 (((n + 1 : ℕ) : ℝ) * d) := by
        push_cast
        exact Icc_union_Icc_eq_Icc (by positivity) (by nlinarith)
      rw [← eu]
      exact h1
  have beyond : ∀ t : ℝ, ∃ n : ℕ, t < n * d := by
    intro t
    obtain ⟨n, hn⟩ := exists_nat_gt (t / d)
    exact ⟨n, by rwa [div_lt_iff₀ hd] at hn⟩
  have cont : ContinuousOn s (Ici 0) := by
    intro t ht
    obtain ⟨n, hn⟩ := beyond t
    have h1 := contN n t ⟨ht, hn.le⟩
    refine h1.mono_of_mem_nhdsWithin ?_
    have h2 := inter_mem_nhdsWithin (Ici (0 : ℝ)) (Iic_mem_nhds hn)
    exact mem_of_superset h2 fun z hz => ⟨hz.1, hz.2⟩
  have der : ∀ t, 0 ≤ t → HasDerivWithinAt s (rhs t (s t) (held d u t)) (Ici t) t := by
    intro t ht
    have hp := place t ht
    set n := ⌊t / d⌋₊ with hn
    have h0 : 0 ≤ t - n * d := by linarith [hp.1]
    have h1 := (hφ (u n) (n * d) (st n) (t - n * d) h0)
    have h2 : HasDerivWithinAt (fun z => φ (u n) (n * d) (st n) (z - n * d)) (F (u n) (φ (u n) (n * d) (st n) (t - n * d)) + e t) (Ici t) t := by
      have h3 := h1.scomp t (((hasDerivAt_id t).sub_const ((n : ℝ) * d)).hasDerivWithinAt (s := Ici t)) (fun z hz => by
        have : t ≤ z := hz
        simp only [mem_Ici, id]
        linarith)
      simpa [Function.comp_def] using h3
    have es : s t = φ (u n) (n * d) (st n) (t - n * d) := piece n t ⟨hp.1, hp.2.le⟩
    rw [hrhs, es]
    refine h2.congr_of_eventuallyEq ?_ es
    have h4 : Icc t ((n + 1) * d) ∈ 𝓝[Ici t] t := Icc_mem_nhdsGE hp.2
    filter_upwards [h4] with z hz
    exact piece n z ⟨hp.1.trans hz.1, hz.2⟩
  have hs0 : s 0 = s0 := by
    have := piece 0 0 ⟨by simp, by simp; exact hd.le⟩
    rw [this]
    simp only [CharP.cast_eq_zero, zero_mul, sub_zero]
    exact hφ0 _ _ _
  refine ⟨s, hs0, fun i => ⟨(continuousOn_pi.1 cont) i, fun t ht => hasDerivWithinAt_pi.1 (der t ht) i⟩, ?_⟩
  intro s' h0' hs' t ht
  have c' : ContinuousOn s' (Ici 0) := continuousOn_pi.2 fun i => (hs' i).1
  have d' : ∀ t, 0 ≤ t → HasDerivWithinAt s' (rhs t (s' t) (held d u t)) (Ici t) t :=
    fun t ht => hasDerivWithinAt_pi.2 fun i => (hs' i).2 t ht
  have step : ∀ n : ℕ, ∀ t ∈ Icc (0 : ℝ) (n * d), s' t = s t := by
    intro n
    induction n with
    | zero =>
      intro t ht
      have : t = 0 := le_antisymm (by simpa using ht.2) ht.1
      rw [this, h0', hs0]
    | succ n ih =>
      intro t ht
      rcases le_total t (n * d) with h | h
      · exact ih t ⟨ht.1, h⟩
      · have hn0 : (0 : ℝ) ≤ n * d := by positivity
        have sub : Icc ((n : ℝ) * d) ((n + 1) * d) ⊆ Ici 0 := fun z hz => hn0.trans hz.1
        have heq : ∀ z ∈ Ico ((n : ℝ) * d) ((n + 1) * d), held d u z = u n := fun z hz => by
          unfold held; rw [fl n z hz.1 hz.2]
        refine motion_unique (hlip (u n)) (e := e) (a := n * d) (b := (n + 1) * d) (c'.mono sub) ?_ (cont.mono sub) ?_
          (ih _ ⟨hn0, le_rfl⟩) ⟨h, by have := ht.2; push_cast at this; exact this⟩
        · intro z hz
          have := d' z (hn0.trans hz.1)
          rw [hrhs, heq z hz] at this
          exact this
        · intro z hz
          have := der z (hn0.trans hz.1)
          rw [hrhs, heq z hz] at this
          exact this
  obtain ⟨n, hn⟩ := beyond t
  exact step n t ⟨ht, hn.le⟩

/-- From every state, for every load and every sequence of inputs, each held for `d`, a drive has exactly one motion for all
times. -/
def OneMotion {U : Type} (torque : (Fin m → ℝ) → ℝ) (elOde : (Fin m → ℝ) → U → ℝ → Fin m → ℝ) : Prop :=
  ∀ load : AnyLoad, load.Ok → ∀ (d : ℝ), 0 < d → ∀ (u : ℕ → U) (s0 : Fin (1 + m) → ℝ),
    ∃ s : ℝ → Fin (1 + m) → ℝ, s 0 = s0 ∧ Runs (systemEquation load.mech torque elOde 0 none) (held d u) s ∧
      ∀ s' : ℝ → Fin (1 + m) → ℝ, s' 0 = s0 → Runs (systemEquation load.mech torque elOde 0 none) (held d u) s' →
        ∀ t, 0 ≤ t → s' t = s t

theorem drive_const_motion (hs : Sound torque elOde W loss P cur) (hl : load.Ok) (u : Fin l → ℝ) (t0 : ℝ) (x0 : Fin (1 + m) → ℝ) :
    ∃ x : ℝ → Fin (1 + m) → ℝ, x 0 = x0 ∧ ∀ t, 0 ≤ t →
      HasDerivWithinAt x (core torque elOde load u (x t) + driftOf load (t0 + t)) (Ici 0) t := by
  refine motion_exists ((lip_core hs.lip hl).fix u) (e := fun t => driftOf load (t0 + t))
    ((continuous_driftOf hl).comp (by fun_prop)) x0 fun T hT => ?_
  have := drive_apriori hs hl u x0 t0 hT
  simpa only [system_split] using this

theorem one_motion (hs : Sound torque elOde W loss P cur) : OneMotion torque elOde := by
  intro load hl d hd0 u s0
  exact switched_motion (F := core torque elOde load) (e := driftOf load) (fun t x u => system_split torque elOde load t x u)
    (fun u => (lip_core hs.lip hl).fix u) (fun u t0 x0 => drive_const_motion hs hl u t0 x0) hd0 u s0

/-! ## The motors -/

section dom

variable {f g : (Fin m → ℝ) → ℝ}

theorem Dom.current (hc : ∃ μ : ℝ, 0 < μ ∧ ∀ x, ∀ i ∈ cur, μ * x i ^ 2 ≤ W x) {i : Fin m} (hi : i ∈ cur) : Dom W fun x => x i := by
  obtain ⟨μ, hμ, hc⟩ := hc
  refine ⟨1 + 1 / μ, by positivity, fun x => ?_⟩
  have h1 := hc x i hi
  have h2 : x i ^ 2 ≤ 1 / μ * W x := by
    rw [div_mul_eq_mul_div, one_mul, le_div_iff₀ hμ]; linarith
  have h3 : |x i| ≤ 1 + x i ^ 2 := by
    rw [abs_le]; constructor <;> nlinarith [sq_nonneg (x i), sq_nonneg (x i + 1), sq_nonneg (x i - 1)]
  have h4 : 0 ≤ W x := le_trans (by positivity) h1
  have h5 : 0 < 1 / μ := by positivity
  nlinarith

theorem Dom.currents (hc : ∃ μ : ℝ, 0 < μ ∧ ∀ x, ∀ i ∈ cur, μ * x i ^ 2 ≤ W x) {i j : Fin m} (hi : i ∈ cur) (hj : j ∈ cur) :
    Dom W fun x => x i * x j := by
  obtain ⟨μ, hμ, hc⟩ := hc
  refine ⟨1 / μ, by positivity, fun x => ?_⟩
  have h1 := hc x i hi
  have h1' := hc x j hj
  have h3 : |x i * x j| ≤ (x i ^ 2 + x j ^ 2) / 2 := by
    rw [abs_le]; constructor <;> nlinarith [sq_nonneg (x i + x j), sq_nonneg (x i - x j)]
  have h4 : (x i ^ 2 + x j ^ 2) / 2 ≤ 1 / μ * W x := by
    rw [div_mul_eq_mul_div, one_mul, le_div_iff₀ hμ]; linarith
  have h5 : 0 < 1 / μ := by positivity
  linarith

theorem Dom.congr (hf : Dom W f) (h : ∀ x, g x = f x) : Dom W g := by
  have : g = f := funext h
  rwa [this]

end dom

theorem extEx_sound (mp : DcParams ℝ) (hla : 0 < mp.la) (hle : 0 < mp.le) (hra : 0 ≤ mp.ra) (hre : 0 ≤ mp.re) :
    Sound (dcTorque mp) (dcOde mp) (dcW mp) (dcLoss mp) dcP [0, 1] := by
  have d := dc_damped { mp with ra := 1, re := 1 } hla hle one_pos one_pos
  have hc : ∃ μ : ℝ, 0 < μ ∧ ∀ x, ∀ i ∈ [0, 1], μ * x i ^ 2 ≤ dcW mp x := d.coercive
  refine ⟨extEx_lip mp, extEx_balance mp hla.ne' hle.ne', d.cont, hc, d.nonneg, fun x => by unfold dcLoss; positivity, ?_, ?_, ?_⟩
  · exact ((Dom.currents hc (i := 0) (j := 1) (by simp) (by simp)).const_mul mp.lePrime).congr fun x => by unfold dcTorque; ring
  · intro u
    exact (((Dom.current hc (i := 0) (by simp)).const_mul (u 0)).add ((Dom.current hc (i := 1) (by simp)).const_mul (u 1))).congr
      fun x => rfl
  · intro i; fin_cases i <;> simp

theorem shunt_sound (mp : DcParams ℝ) (hla : 0 < mp.la) (hle : 0 < mp.le) (hra : 0 ≤ mp.ra) (hre : 0 ≤ mp.re) :
    Sound (dcTorque mp) (shuntOde mp) (dcW mp) (dcLoss mp) shuntP [0, 1] := by
  have h := extEx_sound mp hla hle hra hre
  refine ⟨shunt_lip mp, shunt_balance mp hla.ne' hle.ne', h.cont, h.coercive, h.nonneg, h.loss_nonneg, h.torque_le, ?_, ?_⟩
  · intro u
    exact (h.power_le ![u 0, u 0]).congr fun x => by unfold dcP shuntP; simp; ring
  · intro i; fin_cases i <;> simp

theorem series_sound (mp : DcParams ℝ) (hl : 0 < mp.la + mp.le) (hr : 0 ≤ mp.ra + mp.re) :
    Sound (seriesTorque mp) (seriesOde mp) (seriesW mp) (seriesLoss mp) oneP [0] := by
  have d := one_damped (W := seriesW mp) (loss := fun x => 1 * x 0 ^ 2) hl one_pos (fun _ => rfl) fun _ => rfl
  refine ⟨series_lip mp, series_balance mp hl.ne', d.cont, d.coercive, d.nonneg, fun x => by unfold seriesLoss; positivity, ?_, ?_, ?_⟩
  · exact ((Dom.currents d.coercive (i := 0) (j := 0) (by simp) (by simp)).const_mul mp.lePrime).congr fun x => by
      unfold seriesTorque dcTorque; simp; ring
  · intro u
    exact ((Dom.current d.coercive (i := 0) (by simp)).const_mul (u 0)).congr fun x => rfl
  · intro i; fin_cases i; simp

theorem permEx_sound (mp : PermExParams ℝ) (hl : 0 < mp.la) (hr : 0 ≤ mp.ra) :
    Sound (permExTorque mp) (permExOde mp) (permExW mp) (permExLoss mp) oneP [0] := by
  have d := one_damped (W := permExW mp) (loss := fun x => 1 * x 0 ^ 2) hl one_pos (fun _ => rfl) fun _ => rfl
  refine ⟨permEx_lip mp, permEx_balance mp hl.ne', d.cont, d.coercive, d.nonneg, fun x => by unfold permExLoss; positivity, ?_, ?_, ?_⟩
  · exact ((Dom.current d.coercive (i := 0) (by simp)).const_mul mp.psiE).congr fun x => by unfold permExTorque; ring
  · intro u
    exact ((Dom.current d.coercive (i := 0) (by simp)).const_mul (u 0)).congr fun x => rfl
  · intro i; fin_cases i; simp

theorem pmsm_sound (mp : SyncParams ℝ) (hd : 0 < mp.ld) (hq : 0 < mp.lq) (hr : 0 ≤ mp.rs) :
    Sound (pmsmTorque mp) (syncOde (pmsmConstants mp)) (syncW mp) (syncLoss mp) syncP [0, 1] := by
  have d := sync_damped { mp with rs := 1 } hd hq one_pos
  have hc : ∃ μ : ℝ, 0 < μ ∧ ∀ x, ∀ i ∈ [0, 1], μ * x i ^ 2 ≤ syncW mp x := d.coercive
  have c1 := Dom.current hc (i := 1) (by simp)
  have c0 := Dom.current hc (i := 0) (by simp)
  have c01 := Dom.currents hc (i := 0) (j := 1) (by simp) (by simp)
  refine ⟨pmsm_lip mp, pmsm_balance mp hd.ne' hq.ne', d.cont, hc, d.nonneg, fun x => by unfold syncLoss; positivity, ?_, ?_, ?_⟩
  · exact ((c1.const_mul (3 / 2 * mp.p * mp.psiP)).add (c01.const_mul (3 / 2 * mp.p * (mp.ld - mp.lq)))).congr fun x => by
      unfold pmsmTorque; ring
  · intro u
    exact ((c0.const_mul (3 / 2 * u 0)).add (c1.const_mul (3 / 2 * u 1))).congr fun x => by unfold syncP; ring
  · intro i
    fin_cases i
    · simp
    · simp
    · exact Or.inr ⟨mp.p, fun x u w => by simp [pmsmOde_eq]⟩

theorem synrm_sound (mp : SyncParams ℝ) (hd : 0 < mp.ld) (hq : 0 < mp.lq) (hr : 0 ≤ mp.rs) :
    Sound (synrmTorque mp) (syncOde (synrmConstants mp)) (syncW mp) (syncLoss mp) syncP [0, 1] := by
  have h := pmsm_sound mp hd hq hr
  refine ⟨synrm_lip mp, synrm_balance mp hd.ne' hq.ne', h.cont, h.coercive, h.nonneg, h.loss_nonneg, ?_, h.power_le, ?_⟩
  · exact ((Dom.currents h.coercive (i := 0) (j := 1) (by simp) (by simp)).const_mul (3 / 2 * mp.p * (mp.ld - mp.lq))).congr
      fun x => by unfold synrmTorque; ring
  · intro i
    fin_cases i
    · simp
    · simp
    · exact Or.inr ⟨mp.p, fun x u w => by simp [synrmOde_eq]⟩

theorem eesm_sound (ee : EesmParams ℝ) (ed : 0 < ee.ld) (eq : 0 < ee.lq) (ek : ee.k ≠ 0) (el : 0 < ee.le)
    (es : 3 / 2 * ee.lm ^ 2 < ee.ld * ee.le) (er : 0 ≤ ee.rs) (ere : 0 ≤ ee.re) :
    Sound (eesmTorque ee) (eesmOde ee) (eesmEnergy ee) (eesmLoss ee) eesmP [0, 1, 2] := by
  have hs : ee.sigma ≠ 0 := by
    have : ee.sigma = 1 - 3 / 2 * ee.lm ^ 2 / (ee.ld * ee.le) := by
      unfold EesmParams.sigma EesmParams.lM EesmParams.lE; field_simp
    rw [this]
    have : 3 / 2 * ee.lm ^ 2 / (ee.ld * ee.le) < 1 := by rw [div_lt_one (by positivity)]; exact es
    linarith
  have d := eesm_damped { ee with rs := 1, re := 1 } ed eq el es one_pos one_pos
  have hc : ∃ μ : ℝ, 0 < μ ∧ ∀ x, ∀ i ∈ [0, 1, 2], μ * x i ^ 2 ≤ eesmEnergy ee x := d.coercive
  have c0 := Dom.current hc (i := 0) (by simp)
  have c1 := Dom.current hc (i := 1) (by simp)
  have c2 := Dom.current hc (i := 2) (by simp)
  have c01 := Dom.currents hc (i := 0) (j := 1) (by simp) (by simp)
  have c21 := Dom.currents hc (i := 2) (j := 1) (by simp) (by simp)
  refine ⟨eesm_lip ee, eesm_balance ee ed.ne' eq.ne' ek el.ne' hs, d.cont, hc, d.nonneg, fun x => by unfold eesmLoss; positivity,
    ?_, ?_, ?_⟩
  · exact ((c21.const_mul (3 / 2 * ee.p * ee.lm)).add (c01.const_mul (3 / 2 * ee.p * (ee.ld - ee.lq)))).congr fun x => by
      unfold eesmTorque EesmParams.lM EesmParams.ik; field_simp
  · intro u
    exact (((c0.const_mul (3 / 2 * u 0)).add (c1.const_mul (3 / 2 * u 1))).add (c2.const_mul (u 2))).congr fun x => by
      unfold eesmP; ring
  · intro i
    fin_cases i
    · simp
    · simp
    · simp
    · exact Or.inr ⟨ee.p, fun x u w => by simp [eesmOde_eq]⟩

/-- the input power of a doubly fed motor with the voltages in one row -/
def dfimP4 (mp : ImParams ℝ) (x : Fin 5 → ℝ) (u : Fin 4 → ℝ) : ℝ := dfimP mp x !![u 0, u 1; u 2, u 3]

theorem dfim_sound (mp : ImParams ℝ) (hls : 0 < mp.ls) (hlr : 0 < mp.lr) (hs : 0 < mp.sigma) (hr : 0 ≤ mp.rs) (hrr : 0 ≤ mp.rr) :
    Sound (imTorque mp) (dfimOde4 mp) (imW mp) (imLoss mp) (dfimP4 mp) [0, 1, 2, 3] := by
  have d := im_damped { mp with rs := 1, rr := 1 } hls hlr hs one_pos one_pos
  have hc : ∃ μ : ℝ, 0 < μ ∧ ∀ x, ∀ i ∈ [0, 1, 2, 3], μ * x i ^ 2 ≤ imW mp x := d.coercive
  have c0 := Dom.current hc (i := 0) (by simp)
  have c1 := Dom.current hc (i := 1) (by simp)
  have c2 := Dom.current hc (i := 2) (by simp)
  have c3 := Dom.current hc (i := 3) (by simp)
  have c21 := Dom.currents hc (i := 2) (j := 1) (by simp) (by simp)
  have c30 := Dom.currents hc (i := 3) (j := 0) (by simp) (by simp)
  refine ⟨dfim_lip mp, fun x u w S t h => dfim_balance mp hls.ne' hlr.ne' hs.ne' x !![u 0, u 1; u 2, u 3] w S t h, d.cont, hc, d.nonneg,
    fun x => by unfold imLoss; positivity, ?_, ?_, ?_⟩
  · exact ((c21.const_mul (3 / 2 * mp.p * mp.lm / mp.lr)).add (c30.const_mul (-(3 / 2 * mp.p * mp.lm / mp.lr)))).congr fun x => by
      have : mp.lm + mp.lsigr = mp.lr := rfl
      unfold imTorque; rw [this]; ring
  · intro u
    exact ((((c0.const_mul (3 / 2 * (u 0 - u 2 * mp.lm / mp.lr))).add (c1.const_mul (3 / 2 * (u 1 - u 3 * mp.lm / mp.lr)))).add
      (c2.const_mul (3 / 2 * u 2 / mp.lr))).add (c3.const_mul (3 / 2 * u 3 / mp.lr))).congr fun x => by
        unfold dfimP4 dfimP imRotorCurrent; simp; ring
  · intro i
    fin_cases i
    · simp
    · simp
    · simp
    · simp
    · exact Or.inr ⟨mp.p, fun x u w => by simp [dfimOde4, imOde_eq]⟩

theorem scim_sound (mp : ImParams ℝ) (hls : 0 < mp.ls) (hlr : 0 < mp.lr) (hs : 0 < mp.sigma) (hr : 0 ≤ mp.rs) (hrr : 0 ≤ mp.rr) :
    Sound (imTorque mp) (scimOde mp) (imW mp) (imLoss mp) scimP [0, 1, 2, 3] := by
  have h := dfim_sound mp hls hlr hs hr hrr
  refine ⟨scim_lip mp, scim_balance mp hls.ne' hlr.ne' hs.ne', h.cont, h.coercive, h.nonneg, h.loss_nonneg, h.torque_le, ?_, ?_⟩
  · intro u
    exact (h.power_le ![u 0, u 1, 0, 0]).congr fun x => by unfold scimP dfimP4 dfimP; simp
  · intro i
    fin_cases i
    · simp
    · simp
    · simp
    · simp
    · exact Or.inr ⟨mp.p, fun x u w => by simp [scimOde, imOde_eq]⟩

/-- C106 for DC drives. -/
theorem c106_dc (mp : DcParams ℝ) (pe : PermExParams ℝ) (hla : 0 < mp.la) (hle : 0 < mp.le) (hra : 0 ≤ mp.ra)
    (hre : 0 ≤ mp.re) (pl : 0 < pe.la) (pr : 0 ≤ pe.ra) :
    OneMotion (dcTorque mp) (dcOde mp) ∧ OneMotion (dcTorque mp) (shuntOde mp) ∧
    OneMotion (seriesTorque mp) (seriesOde mp) ∧ OneMotion (permExTorque pe) (permExOde pe) :=
  ⟨one_motion (extEx_sound mp hla hle hra hre), one_motion (shunt_sound mp hla hle hra hre),
    one_motion (series_sound mp (add_pos hla hle) (add_nonneg hra hre)), one_motion (permEx_sound pe pl pr)⟩

/-- C106 for drives with synchronous motors. -/
theorem c106_sync (mp : SyncParams ℝ) (ee : EesmParams ℝ) (hd : 0 < mp.ld) (hq : 0 < mp.lq) (hr : 0 ≤ mp.rs)
    (ed : 0 < ee.ld) (eq : 0 < ee.lq) (ek : ee.k ≠ 0) (el : 0 < ee.le) (es : 3 / 2 * ee.lm ^ 2 < ee.ld * ee.le) (er : 0 ≤ ee.rs)
    (ere : 0 ≤ ee.re) :
    OneMotion (pmsmTorque mp) (syncOde (pmsmConstants mp)) ∧ OneMotion (synrmTorque mp) (syncOde (synrmConstants mp)) ∧
    OneMotion (eesmTorque ee) (eesmOde ee) :=
  ⟨one_motion (pmsm_sound mp hd hq hr), one_motion (synrm_sound mp hd hq hr), one_motion (eesm_sound ee ed eq ek el es er ere)⟩

/-- C106 for drives with induction motors. -/
theorem c106_induction (mp : ImParams ℝ) (hls : 0 < mp.ls) (hlr : 0 < mp.lr) (hs : 0 < mp.sigma) (hr : 0 ≤ mp.rs)
    (hrr : 0 ≤ mp.rr) : OneMotion (imTorque mp) (scimOde mp) ∧ OneMotion (imTorque mp) (imOde mp) := by
  refine ⟨one_motion (scim_sound mp hls hlr hs hr hrr), fun load hl d hd u s0 => ?_⟩
  have h := one_motion (dfim_sound mp hls hlr hs hr hrr) load hl d hd (fun n => inRow (u n)) s0
  have e : ∀ t x, systemEquation load.mech (imTorque mp) (dfimOde4 mp) 0 none t x (held d (fun n => inRow (u n)) t)
      = systemEquation load.mech (imTorque mp) (imOde mp) 0 none t x (held d u t) := by
    intro t x
    simp only [systemEquation, held, dfimOde4_inRow]
  simpa only [Runs, e] using h

/-- The motions in `c105_series_violated` exist, so an unloaded series motor does run away. -/
example (mp : DcParams ℝ) (hla : 0 < mp.la) (hle : 0 < mp.le) (hra : 0 < mp.ra) (hre : 0 < mp.re) (hl : 0 < mp.lePrime) (V : ℝ)
    (hV : 0 < V) : ∃ s : ℝ → Fin 2 → ℝ,
      Runs (systemEquation (polyMech 0 0 0 1 1 []) (seriesTorque mp) (seriesOde mp) 0 none) (fun _ => ![V]) s ∧
      ∀ B, ∃ t, 0 ≤ t ∧ B < s t 0 := by
  have hp : PolyParams (0 : ℝ) 0 0 1 1 [] := ⟨le_rfl, le_rfl, le_rfl, one_pos, one_pos, by simp⟩
  obtain ⟨s, h0, hs, -⟩ := (c106_dc mp ⟨1, 1, 1⟩ hla hle hra.le hre.le one_pos zero_le_one).2.2.1 (.poly 0 0 0 1 1 []) hp 1 one_pos
    (fun _ => ![V]) ![0, 0]
  exact ⟨s, hs, c105_series_violated mp hl (add_pos hra hre) (add_pos hla hle) hp V hV s hs h0⟩

/-- A motor without resistance, driven along a sinusoidal speed profile. -/
example (d : ℝ) (hd : 0 < d) (u : ℕ → Fin 2 → ℝ) : ∃ s : ℝ → Fin 4 → ℝ, s 0 = ![0, 0, 0, 0] ∧
    Runs (systemEquation (AnyLoad.mech (.external Real.sin d)) (pmsmTorque ⟨3, 1, 2, 0, 1⟩)
      (syncOde (pmsmConstants ⟨3, 1, 2, 0, 1⟩)) 0 none) (held d u) s := by
  obtain ⟨s, h0, hs, -⟩ := one_motion (pmsm_sound ⟨3, 1, 2, 0, 1⟩ one_pos two_pos le_rfl) (.external Real.sin d)
    ⟨Real.continuous_sin, hd⟩ d hd u ![0, 0, 0, 0]
  exact ⟨s, h0, hs⟩

end

end GEM.Props
