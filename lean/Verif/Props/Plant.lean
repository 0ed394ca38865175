import Mathlib.Analysis.SpecificLimits.Basic
import Mathlib.Analysis.SpecialFunctions.Integrals.Basic
import Mathlib.Topology.Order.Lattice
import Mathlib.Analysis.Calculus.MeanValue
import Mathlib.Analysis.Calculus.Deriv.Abs
import Verif.Proofs.Plant

/-!
# Properties of solvers, voltage supplies and mechanical loads (C22-C26, C27 for the load, C65, C66)
-/

set_option linter.unusedSectionVars false

namespace GEM.Props

open GEM.Solver GEM.Supply GEM.Load GEM.Spec

/-! ## C24: Euler solver -/

section euler
variable {K : Type*} [Field K] [LinearOrder K] [IsStrictOrderedRing K]
variable {Y : Type*} [AddCommGroup Y] [Module K Y]

/-- C24: with one step per call the result is the explicit Euler step over the whole interval, for every right-hand
side. -/
theorem c24_one_step (f : K → Y → Y) (s : Euler K Y) (t : K) (h : s.nsteps = 1) :
    s.integrate f t = (⟨t, eulerIter f (t - s.t) 1 s.t s.y, 1⟩, .ok (eulerIter f (t - s.t) 1 s.t s.y)) := by
  unfold Euler.integrate
  rw [if_pos h]
  simp [Euler.integrateOneStep, eulerIter, h]

/-- C24: `integrate(t)` never fails for `nsteps ≥ 1`, afterwards the solver reports time `t` and the returned state. -/
theorem c24_time (f : K → Y → Y) (s : Euler K Y) (t : K) (h : 1 ≤ s.nsteps) :
    ∃ y, s.integrate f t = (⟨t, y, s.nsteps⟩, .ok y) := by
  unfold Euler.integrate
  by_cases h1 : s.nsteps = 1
  · rw [if_pos h1]; exact ⟨_, rfl⟩
  · rw [if_neg h1, if_neg (by omega)]; exact ⟨_, rfl⟩

/-- C24 (what the code computes for `nsteps ≥ 2`): the Euler iterate of the right-hand side shifted in time by the
interval length plus one sub-step. -/
theorem c24_nsteps_shifted (f : K → Y → Y) (s : Euler K Y) (t : K) (h : 2 ≤ s.nsteps) :
    (s.integrate f t).2 = .ok (eulerIter (fun τ y => f (τ + (t - s.t) + (t - s.t) / s.nsteps) y)
      ((t - s.t) / s.nsteps) s.nsteps s.t s.y) := by
  unfold Euler.integrate
  rw [if_neg (by omega), if_neg (by omega)]
  simp only [Euler.integrateNsteps]
  have := nstepsLoop_eq f ((t - s.t) / s.nsteps) (t - s.t) s.nsteps s.t s.y
  rw [show s.t + (t - s.t) = t by ring] at this
  rw [this]

/-- C24, partial: for right-hand sides that do not depend on time the result is the explicit Euler iterate with `nsteps`
equal sub-steps.  Missing: time dependent right-hand sides, see `c24_times_violated`. -/
theorem c24_autonomous_partial (g : Y → Y) (s : Euler K Y) (t : K) (h : 1 ≤ s.nsteps) :
    (s.integrate (fun _ y => g y) t).2 = .ok (eulerIter (fun _ y => g y) ((t - s.t) / s.nsteps) s.nsteps s.t s.y) := by
  rcases Nat.lt_or_ge 1 s.nsteps with h2 | h2
  · rw [c24_nsteps_shifted _ _ _ h2]
  · have h1 : s.nsteps = 1 := by omega
    rw [c24_one_step _ _ _ h1, h1]; simp

/-- C24: constant right-hand sides are integrated exactly. -/
theorem c24_constant_exact (c : Y) (s : Euler K Y) (t : K) (h : 1 ≤ s.nsteps) :
    (s.integrate (fun _ _ => c) t).2 = .ok (s.y + (t - s.t) • c) := by
  rw [c24_autonomous_partial (fun _ => c) s t h, eulerIter_const]
  have : (s.nsteps : K) ≠ 0 := by exact_mod_cast (by omega : s.nsteps ≠ 0)
  rw [mul_div_cancel₀ _ this]

/-- C24 violated: for every `nsteps ≥ 2` and every interval the solver evaluates the right-hand side only at times after
the end of the interval.  A right-hand side that is zero on the whole interval and one afterwards changes the state by
the interval length. -/
theorem c24_times_violated (s : Euler K K) (t : K) (h : 2 ≤ s.nsteps) (ht : s.t < t) :
    (s.integrate (fun τ _ => if τ ≤ t then 0 else 1) t).2 = .ok (s.y + (t - s.t)) ∧ s.y + (t - s.t) ≠ s.y := by
  refine ⟨?_, by intro e; linarith [add_eq_left.1 e]⟩
  rw [c24_nsteps_shifted _ _ _ h]
  have hn : (0 : K) < s.nsteps := by exact_mod_cast (by omega : 0 < s.nsteps)
  have hh : 0 < (t - s.t) / s.nsteps := div_pos (by linarith) hn
  have key : ∀ (n : ℕ) (τ y : K), s.t ≤ τ →
      eulerIter (fun τ' _ => if τ' + (t - s.t) + (t - s.t) / s.nsteps ≤ t then (0 : K) else 1)
        ((t - s.t) / s.nsteps) n τ y = y + n * ((t - s.t) / s.nsteps) := by
    intro n
    induction n with
    | zero => intro τ y _; simp [eulerIter]
    | succ n ih =>
      intro τ y hτ
      simp only [eulerIter]
      rw [ih _ _ (by linarith), if_neg (by linarith), smul_eq_mul, Nat.cast_succ]
      ring
  rw [key _ _ _ le_rfl, mul_div_cancel₀ _ hn.ne']

/-- `c24_*` are met by a solver in the middle of a run. -/
example : ∃ s : Euler ℚ ℚ, 2 ≤ s.nsteps ∧ s.t < 3 ∧ s.y ≠ 0 ∧
    (s.integrate (fun _ y => -y) 3).2 = .ok (5 / 4) := by
  refine ⟨⟨2, 5, 2⟩, by norm_num, by norm_num, by norm_num, ?_⟩
  rw [c24_autonomous_partial _ _ _ (by norm_num)]
  norm_num [eulerIter]
end euler

/-! ## C22, C65: RC supply -/

section rc
variable {K : Type*} [Field K] [LinearOrder K] [IsStrictOrderedRing K]

/-- C22: over every history of calls with currents in `[0, u_nominal/R]` and time increments in `[0, RC]` every returned
voltage lies in the declared supply range. -/
theorem c22_range (l : List (K × K)) : ∀ (s : RC K), 0 < s.r → 0 < s.c → 0 ≤ s.solver.y ∧ s.solver.y ≤ s.u0 →
    rcAdmissible s.u0 s.r s.c s.solver.t l → ∀ u ∈ (s.run l).2, s.range.1 ≤ u ∧ u ≤ s.range.2 := by
  induction l with
  | nil => intro s _ _ _ _ u hu; simp [RC.run] at hu
  | cons p l ih =>
    obtain ⟨t, i⟩ := p
    intro s hr hc hy ha u hu
    obtain ⟨h1, h2, h3⟩ := ha
    have hs := rc_step_range hr hc hy h1 h2
    simp only [RC.run, List.mem_cons] at hu
    rcases hu with hu | hu
    · rw [hu, RC.getVoltage_eq]; exact hs
    · exact ih (s.getVoltage t i).1 hr hc (by rw [RC.getVoltage_eq]; exact hs)
        (by rw [RC.getVoltage_eq]; exact h3) u hu

/-- C22 from a reset: whatever happened before, after `reset` the capacitor is loaded, time starts at zero and the
range is kept. -/
theorem c22_reset (s : RC K) (hr : 0 < s.r) (hc : 0 < s.c) (h0 : 0 ≤ s.u0) (l : List (K × K))
    (ha : rcAdmissible s.u0 s.r s.c 0 l) :
    s.reset.2 = s.u0 ∧ ∀ u ∈ (s.reset.1.run l).2, 0 ≤ u ∧ u ≤ s.u0 :=
  ⟨rfl, c22_range l s.reset.1 hr hc ⟨h0, le_rfl⟩ ha⟩

/-- C22: without load the loaded supply keeps its nominal voltage, for every sampling. -/
theorem c22_no_load (ts : List K) : ∀ (s : RC K), s.solver.y = s.u0 →
    ∀ u ∈ (s.run (ts.map (fun t => (t, 0)))).2, u = s.u0 := by
  induction ts with
  | nil => intro s _ u hu; simp [RC.run] at hu
  | cons t ts ih =>
    intro s hs u hu
    have e : s.solver.y + (t - s.solver.t) * ((s.u0 - s.solver.y - s.r * 0) / (s.r * s.c)) = s.u0 := by
      rw [hs]; simp
    simp only [List.map_cons, RC.run, List.mem_cons] at hu
    rcases hu with hu | hu
    · rw [hu, RC.getVoltage_eq]; exact e
    · exact ih (s.getVoltage t 0).1 (by rw [RC.getVoltage_eq]; exact e) u hu

/-- The relative decay over a list of sampling times. -/
def rcDecay (rc : K) : K → List K → K
  | _, [] => 1
  | t, t' :: ts => (1 - (t' - t) / rc) * rcDecay rc t' ts

/-- C22: under a constant load `i` the distance to `u_nominal - R*i` is multiplied by `1 - Δ/(RC)` per call; after any
sampling the voltage is given in closed form. -/
theorem c22_constant_load (i : K) (ts : List K) : ∀ (s : RC K), s.r ≠ 0 → s.c ≠ 0 →
    (s.run (ts.map (fun t => (t, i)))).1.solver.y - (s.u0 - s.r * i) =
      rcDecay (s.r * s.c) s.solver.t ts * (s.solver.y - (s.u0 - s.r * i)) := by
  induction ts with
  | nil => intro s _ _; simp [RC.run, rcDecay]
  | cons t ts ih =>
    intro s hr hc
    have := ih (s.getVoltage t i).1 hr hc
    simp only [List.map_cons, RC.run, rcDecay]
    rw [RC.getVoltage_eq] at this ⊢
    simp only at this ⊢
    rw [this]
    field_simp
    ring

/-- C22: one call under load `i` moves the voltage towards `u_nominal - R*i` without passing it. -/
theorem c22_monotone (s : RC K) (t i : K) (hr : 0 < s.r) (hc : 0 < s.c)
    (hd : 0 ≤ t - s.solver.t ∧ t - s.solver.t ≤ s.r * s.c) :
    (s.solver.y ≤ s.u0 - s.r * i → s.solver.y ≤ (s.getVoltage t i).2 ∧ (s.getVoltage t i).2 ≤ s.u0 - s.r * i) ∧
    (s.u0 - s.r * i ≤ s.solver.y → s.u0 - s.r * i ≤ (s.getVoltage t i).2 ∧ (s.getVoltage t i).2 ≤ s.solver.y) := by
  have hrc : 0 < s.r * s.c := mul_pos hr hc
  obtain ⟨q, hq⟩ : ∃ q, q = (t - s.solver.t) / (s.r * s.c) := ⟨_, rfl⟩
  have hq0 : 0 ≤ q := by rw [hq]; exact div_nonneg hd.1 hrc.le
  have hq1 : q ≤ 1 := by rw [hq, div_le_one hrc]; exact hd.2
  have e : (s.getVoltage t i).2 = s.solver.y + q * (s.u0 - s.r * i - s.solver.y) := by
    rw [RC.getVoltage_eq, hq]; simp only; field_simp; ring
  rw [e]
  constructor <;> intro h <;> constructor <;> nlinarith

/-- C22: under a constant load sampled with a constant increment in `(0, RC]` the voltage converges to
`u_nominal - R*i`. -/
theorem c22_converges (s : RC ℝ) (i d : ℝ) (hr : 0 < s.r) (hc : 0 < s.c) (hd : 0 < d ∧ d ≤ s.r * s.c) :
    Filter.Tendsto
      (fun n : ℕ => (s.run (((List.range n).map (fun k : ℕ => s.solver.t + (k + 1) * d)).map (fun t => (t, i)))).1.solver.y)
      Filter.atTop (nhds (s.u0 - s.r * i)) := by
  have hrc : 0 < s.r * s.c := mul_pos hr hc
  have dec : ∀ (n k : ℕ), rcDecay (s.r * s.c) (s.solver.t + k * d)
      ((List.range' k n).map (fun k : ℕ => s.solver.t + (k + 1) * d)) = (1 - d / (s.r * s.c)) ^ n := by
    intro n
    induction n with
    | zero => intro k; simp [rcDecay]
    | succ n ih =>
      intro k
      have := ih (k + 1)
      simp only [List.range'_succ, List.map_cons, rcDecay]
      push_cast at this
      rw [this, pow_succ]
      ring
  have e : ∀ n : ℕ, (s.run (((List.range n).map (fun k : ℕ => s.solver.t + (k + 1) * d)).map
      (fun t => (t, i)))).1.solver.y =
      (s.u0 - s.r * i) + (1 - d / (s.r * s.c)) ^ n * (s.solver.y - (s.u0 - s.r * i)) := by
    intro n
    have h1 := c22_constant_load i ((List.range n).map (fun k : ℕ => s.solver.t + (k + 1) * d)) s hr.ne' hc.ne'
    have h2 := dec n 0
    rw [List.range_eq_range'] at h1 ⊢
    simp only [Nat.cast_zero, zero_mul, add_zero] at h2
    rw [h2] at h1
    linarith
  simp_rw [e]
  have h0 : 0 ≤ 1 - d / (s.r * s.c) := by rw [sub_nonneg, div_le_one hrc]; exact hd.2
  have h1 : 1 - d / (s.r * s.c) < 1 := by have := div_pos hd.1 hrc; linarith
  have := ((tendsto_pow_atTop_nhds_zero_of_lt_one h0 h1).mul_const (s.solver.y - (s.u0 - s.r * i))).const_add
    (s.u0 - s.r * i)
  simpa using this

/-- C65 violated: with a current flowing back into the supply the voltage leaves the declared range; this happens from
the loaded state for every negative current and every admissible increment. -/
theorem c65_feedback_violated (s : RC K) (t i : K) (hr : 0 < s.r) (hc : 0 < s.c) (hi : i < 0) (ht : 0 < t) :
    s.range.2 < (s.reset.1.getVoltage t i).2 := by
  rw [RC.getVoltage_eq]
  simp only [RC.reset, RC.range, Euler.setInitialValue]
  have hrc : 0 < s.r * s.c := mul_pos hr hc
  have : 0 < (s.u0 - s.u0 - s.r * i) / (s.r * s.c) := div_pos (by nlinarith) hrc
  nlinarith [mul_pos (by linarith : 0 < t - 0) this]

/-- C65, partial: the ideal supply always reports exactly its (degenerate) range.  The range of the RC supply is kept for
load currents between zero and the short circuit current (`c22_range`), the ranges of the AC supplies always
(`c23_single_range`, `c23_three_range`). -/
theorem c65_ideal_partial (u t i : K) : ∀ x ∈ idealVoltage u t i, u ≤ x ∧ x ≤ u := by
  intro x hx
  simp only [idealVoltage, List.mem_singleton] at hx
  exact ⟨hx.ge, hx.le⟩

/-- An admissible history with changing load. -/
example : rcAdmissible (600 : ℚ) 1 (4 / 1000) 0 [(0, 300), (1 / 1000, 600), (5 / 1000, 0)] := by
  norm_num [rcAdmissible]
example : (((RC.new (600 : ℚ) 1 (4 / 1000)).reset.1.run [(0, 300), (1 / 1000, 600), (5 / 1000, 0)]).2) = [600, 450, 600] := by
  norm_num [RC.run, RC.getVoltage, RC.new, RC.reset, Euler.setInitialValue, Euler.integrateOneStep, RC.rhs]

end rc

/-! ## C23: AC supplies -/

section ac
open Real

theorem sin_third (x : ℝ) : sin (x + 2 / 3 * π * 0) + sin (x + 2 / 3 * π * 1) + sin (x + 2 / 3 * π * 2) = 0 := by
  have h1 : sin (x + 2 / 3 * π * 1) = -(sin (x - π / 3)) := by
    rw [← sin_add_pi]; congr 1; ring
  have h2 : sin (x + 2 / 3 * π * 2) = -(sin (x + π / 3)) := by
    rw [← sin_add_pi]; congr 1; ring
  rw [h1, h2, mul_zero, add_zero, sin_sub, sin_add, cos_pi_div_three]; ring

/-- C23: the single phase voltage never exceeds `√2 * u_nominal`. -/
theorem c23_single_bound {u f draw : ℝ} {phase : Option ℝ} {s : AC} (hu : 0 ≤ u) (h : AC.new1 u f phase draw = .ok s)
    (t : ℝ) : ∀ x ∈ s.get1 t, |x| ≤ √2 * u := by
  have hA : s.maxAmp = u * √2 := by
    unfold AC.new1 at h
    split at h
    · split at h <;> cases h; rfl
    · cases h; rfl
  intro x hx
  simp only [AC.get1, List.mem_singleton] at hx
  rw [hx, hA, abs_mul, abs_of_nonneg (mul_nonneg hu (sqrt_nonneg 2)), mul_comm √2]
  exact mul_le_of_le_one_right (mul_nonneg hu (sqrt_nonneg 2)) (abs_sin_le_one _)

/-- C23: the reported single phase voltage stays in the declared supply range. -/
theorem c23_single_range (s : AC) (hA : 0 ≤ s.maxAmp) (t : ℝ) : ∀ x ∈ s.get1 t, s.range.1 ≤ x ∧ x ≤ s.range.2 := by
  intro x hx
  simp only [AC.get1, List.mem_singleton] at hx
  have : |x| ≤ s.maxAmp := by
    rw [hx, abs_mul, abs_of_nonneg hA]; exact mul_le_of_le_one_right hA (abs_sin_le_one _)
  rw [abs_le] at this
  simpa [AC.range] using this

/-- C23: the same for the three phase supply. -/
theorem c23_three_range (s : AC) (hA : 0 ≤ s.maxAmp) (t : ℝ) : ∀ x ∈ s.get3 t, s.range.1 ≤ x ∧ x ≤ s.range.2 := by
  intro x hx
  simp only [AC.get3, List.mem_map] at hx
  obtain ⟨i, _, hx⟩ := hx
  have : |x| ≤ s.maxAmp := by
    rw [← hx, abs_mul, abs_of_nonneg hA]; exact mul_le_of_le_one_right hA (abs_sin_le_one _)
  rw [abs_le] at this
  simpa [AC.range] using this

/-- C23: both supplies repeat after `1/f`. -/
theorem c23_periodic (s : AC) (hf : s.f ≠ 0) (t : ℝ) :
    s.get1 (t + 1 / s.f) = s.get1 t ∧ s.get3 (t + 1 / s.f) = s.get3 t := by
  have e : ∀ x : ℝ, 2 * π * s.f * (t + 1 / s.f) + x = 2 * π * s.f * t + x + 2 * π := by
    intro x; field_simp; ring
  have e2 : ∀ x y : ℝ, 2 * π * s.f * (t + 1 / s.f) + x + y = 2 * π * s.f * t + x + y + 2 * π := by
    intro x y; field_simp; ring
  constructor
  · simp only [AC.get1, e, sin_add_two_pi]
  · simp only [AC.get3, e2, sin_add_two_pi]

/-- C23: the three voltages sum to zero at all times. -/
theorem c23_balanced (s : AC) (t : ℝ) : (s.get3 t).length = 3 ∧ (s.get3 t).sum = 0 := by
  have := sin_third (2 * π * s.f * t + s.phi)
  refine ⟨by simp [AC.get3], ?_⟩
  simp only [AC.get3, List.range, List.range.loop, List.map, List.sum_cons, List.sum_nil]
  push_cast
  linear_combination s.maxAmp * this

/-- C23: phase `i` is phase 0 shifted in time by `i/3` of a period. -/
theorem c23_shifted (s : AC) (hf : s.f ≠ 0) (t : ℝ) (i : ℕ) (hi : i < 3) :
    (s.get3 t)[i]? = (s.get3 (t + i / (3 * s.f)))[0]? := by
  simp only [AC.get3, List.getElem?_map]
  rw [List.getElem?_range hi, List.getElem?_range (by norm_num)]
  simp only [Option.map_some, Option.some.injEq]
  congr 2
  push_cast
  field_simp
  ring

/-- C23: resets leave a fixed phase untouched, and otherwise choose the phase in `[0, 2π)`; both then report the voltage
of time zero.  Bounds and period are those of the unchanged amplitude and frequency. -/
theorem c23_reset (get : AC → ℝ → List ℝ) (s : AC) (draw : ℝ) (hd : 0 ≤ draw ∧ draw < 1) :
    (s.fixed = true → (s.reset get draw).1 = s) ∧
    (s.fixed = false → 0 ≤ (s.reset get draw).1.phi ∧ (s.reset get draw).1.phi < 2 * π) ∧
    (s.reset get draw).2 = get (s.reset get draw).1 0 ∧
    (s.reset get draw).1.maxAmp = s.maxAmp ∧ (s.reset get draw).1.f = s.f ∧ (s.reset get draw).1.fixed = s.fixed := by
  unfold AC.reset
  refine ⟨fun h => by simp [h], fun h => ?_, rfl, ?_⟩
  · simp only [h, Bool.false_eq_true, if_false]
    have := Real.pi_pos
    constructor <;> nlinarith [hd.1, hd.2]
  · cases h : s.fixed <;> simp [h]

/-- C66: effective value.  The mean square of the single phase voltage over one period is `u_nominal²`. -/
theorem c66_single_rms {u f draw : ℝ} {phase : Option ℝ} {s : AC} (hf : 0 < f) (h : AC.new1 u f phase draw = .ok s) :
    f * ∫ t in (0 : ℝ)..(1 / f), ((s.get1 t).headD 0) ^ 2 = u ^ 2 := by
  have hA : s.maxAmp = u * √2 ∧ s.f = f := by
    unfold AC.new1 at h
    split at h
    · split at h <;> cases h; exact ⟨rfl, rfl⟩
    · cases h; exact ⟨rfl, rfl⟩
  simp only [AC.get1, List.headD_cons, hA.1, hA.2]
  have e : ∀ t : ℝ, (u * √2 * sin (2 * π * f * t + s.phi)) ^ 2 = 2 * u ^ 2 * (sin ((2 * π * f) * t + s.phi)) ^ 2 := by
    intro t; rw [mul_pow, mul_pow, sq_sqrt (by norm_num)]; ring
  simp_rw [e]
  have hc : (2 * π * f) ≠ 0 := by positivity
  rw [intervalIntegral.integral_const_mul,
    intervalIntegral.integral_comp_mul_add (fun x => sin x ^ 2) hc s.phi, integral_sin_sq]
  have hend : 2 * π * f * (1 / f) + s.phi = s.phi + 2 * π := by field_simp; ring
  rw [hend, sin_add_two_pi, cos_add_two_pi]
  simp only [mul_zero, zero_add, smul_eq_mul]
  have := Real.pi_ne_zero
  field_simp
  ring

/-- C66: the effective value between two phases of the three phase supply is `u_nominal`. -/
theorem c66_three_rms {u f draw : ℝ} {phase : Option ℝ} {s : AC} (hf : 0 < f) (h : AC.new3 u f phase draw = .ok s) :
    f * ∫ t in (0 : ℝ)..(1 / f), ((s.get3 t)[0]?.getD 0 - (s.get3 t)[1]?.getD 0) ^ 2 = u ^ 2 := by
  have hA : s.maxAmp = u / √3 * √2 ∧ s.f = f := by
    unfold AC.new3 at h
    split at h
    · split at h <;> cases h; exact ⟨rfl, rfl⟩
    · cases h; exact ⟨rfl, rfl⟩
  simp only [AC.get3, hA.1, hA.2, List.range, List.range.loop, List.map]
  simp only [List.getElem?_cons_zero, List.getElem?_cons_succ, Option.getD_some]
  have e : ∀ t : ℝ, (u / √3 * √2 * sin (2 * π * f * t + s.phi + 2 / 3 * π * ((0 : ℕ) : ℝ)) -
      u / √3 * √2 * sin (2 * π * f * t + s.phi + 2 / 3 * π * ((1 : ℕ) : ℝ))) ^ 2 =
      2 * u ^ 2 * (sin ((2 * π * f) * t + (s.phi - π / 6))) ^ 2 := by
    intro t
    have h1 : sin (2 * π * f * t + s.phi + 2 / 3 * π * ((1 : ℕ) : ℝ)) = cos (2 * π * f * t + s.phi + π / 6) := by
      rw [← sin_add_pi_div_two]; congr 1; push_cast; ring
    have h2 : sin (2 * π * f * t + s.phi) - cos (2 * π * f * t + s.phi + π / 6) =
        √3 * sin (2 * π * f * t + (s.phi - π / 6)) := by
      rw [show 2 * π * f * t + (s.phi - π / 6) = (2 * π * f * t + s.phi) - π / 6 by ring, sin_sub, cos_add,
        sin_pi_div_six, cos_pi_div_six]
      have := Real.mul_self_sqrt (show (0 : ℝ) ≤ 3 by norm_num)
      linear_combination (-sin (2 * π * f * t + s.phi) / 2) * this
    rw [h1]
    simp only [Nat.cast_zero, mul_zero, add_zero]
    rw [← mul_sub, h2]
    have h3 : √3 ≠ 0 := by positivity
    have h4 : (√2) ^ 2 = 2 := sq_sqrt (by norm_num)
    field_simp
    rw [h4]
  simp_rw [e]
  have hc : (2 * π * f) ≠ 0 := by positivity
  rw [intervalIntegral.integral_const_mul,
    intervalIntegral.integral_comp_mul_add (fun x => sin x ^ 2) hc (s.phi - π / 6), integral_sin_sq]
  have hend : 2 * π * f * (1 / f) + (s.phi - π / 6) = (s.phi - π / 6) + 2 * π := by field_simp; ring
  rw [hend, sin_add_two_pi, cos_add_two_pi]
  simp only [mul_zero, zero_add, smul_eq_mul]
  have := Real.pi_ne_zero
  field_simp
  ring

/-- The constructors succeed with and without a given phase. -/
example : (∃ s, AC.new1 230 50 none (1 / 4) = .ok s ∧ s.get1 0 = [230 * √2]) ∧ ∃ s, AC.new3 400 50 (some 1) 0 = .ok s := by
  refine ⟨⟨_, rfl, ?_⟩, ?_⟩
  · simp only [AC.get1]
    have : 2 * π * 50 * 0 + 1 / 4 * 2 * π = π / 2 := by ring
    rw [this, sin_pi_div_two, mul_one]
  · have := Real.two_le_pi
    simp only [AC.new3]
    rw [if_pos ⟨by norm_num, by linarith⟩]
    exact ⟨_, rfl⟩

end ac

/-! ## C25: static load -/

section load
variable {K : Type*} [Field K] [LinearOrder K] [IsStrictOrderedRing K]

/-- The polynomial loads that occur: constructed with non-negative coefficients, then told the inertia of any number of
rotors. -/
def polyOf (a b c jLoad tau : K) (rotors : List K) : Poly K := rotors.foldl Poly.setJRotor (Poly.new a b c jLoad tau)

/-- Parameters a user may pass. -/
structure PolyParams (a b c jLoad tau : K) (rotors : List K) : Prop where
  a : 0 ≤ a
  b : 0 ≤ b
  c : 0 ≤ c
  j : 0 < jLoad
  tau : 0 < tau
  rotors : ∀ j ∈ rotors, 0 ≤ j

theorem polyOf_ok {a b c j tau : K} {rs : List K} (h : PolyParams a b c j tau rs) : (polyOf a b c j tau rs).Ok :=
  Poly.ok_foldl rs h.rotors (Poly.ok_new h.a h.b h.c h.j h.tau)

theorem polyOf_fields (a b c tau : K) (rs : List K) : ∀ j, (polyOf a b c j tau rs).a = a ∧
    (polyOf a b c j tau rs).b = b ∧ (polyOf a b c j tau rs).c = c ∧ (polyOf a b c j tau rs).tauDecay = tau ∧
    (polyOf a b c j tau rs).jTotal = j + rs.sum := by
  have gen : ∀ (rs : List K) (l : Poly K), (rs.foldl Poly.setJRotor l).a = l.a ∧ (rs.foldl Poly.setJRotor l).b = l.b ∧
      (rs.foldl Poly.setJRotor l).c = l.c ∧ (rs.foldl Poly.setJRotor l).tauDecay = l.tauDecay ∧
      (rs.foldl Poly.setJRotor l).jTotal = l.jTotal + rs.sum := by
    intro rs
    induction rs with
    | nil => intro l; simp
    | cons r rs ih =>
      intro l
      obtain ⟨h1, h2, h3, h4, h5⟩ := ih (l.setJRotor r)
      simp only [List.foldl_cons, List.sum_cons]
      refine ⟨h1, h2, h3, h4, ?_⟩
      rw [h5]; simp only [Poly.setJRotor]; ring
  intro j
  exact gen rs (Poly.new a b c j tau)

/-- C25: the load torque is quadratic + linear + regularised Coulomb friction, with the slope of the regularisation
belonging to the total inertia of load and rotors. -/
theorem c25_friction {a b c j tau : K} {rs : List K} (h : PolyParams a b c j tau rs) (w : K) :
    (polyOf a b c j tau rs).staticLoad w = friction a b c ((j + rs.sum) / tau) w := by
  have e := polyOf_fields a b c tau rs j
  rw [Poly.staticLoad_eq (polyOf_ok h), e.1, e.2.1, e.2.2.1, e.2.2.2.1, e.2.2.2.2]

/-- C25: odd in the speed and zero at standstill. -/
theorem c25_odd {a b c j tau : K} {rs : List K} (h : PolyParams a b c j tau rs) (w : K) :
    (polyOf a b c j tau rs).staticLoad (-w) = -(polyOf a b c j tau rs).staticLoad w ∧
    (polyOf a b c j tau rs).staticLoad 0 = 0 := by
  rw [c25_friction h, c25_friction h, c25_friction h]
  exact ⟨friction_odd _ _ _ _ _ h.a, friction_zero h.a⟩

/-- C25: monotone in the speed. -/
theorem c25_monotone {a b c j tau : K} {rs : List K} (h : PolyParams a b c j tau rs) :
    Monotone (polyOf a b c j tau rs).staticLoad := by
  intro v w hvw
  rw [c25_friction h, c25_friction h]
  have hs : 0 ≤ rs.sum := List.sum_nonneg h.rotors
  exact friction_mono h.b h.c (div_nonneg (by linarith [h.j]) h.tau.le) hvw

/-- C25: the load torque never accelerates: `omega * T_L ≥ 0`. -/
theorem c25_opposes {a b c j tau : K} {rs : List K} (h : PolyParams a b c j tau rs) (w : K) :
    0 ≤ w * (polyOf a b c j tau rs).staticLoad w := by
  have h0 := (c25_odd h 0).2
  rcases le_total 0 w with hw | hw
  · have := c25_monotone h hw
    rw [h0] at this; exact mul_nonneg hw this
  · have := c25_monotone h hw
    rw [h0] at this; exact mul_nonneg_of_nonpos_of_nonpos hw this

/-- C25: without drive torque the speed of a coasting shaft never grows in absolute value: the derivative of `omega`
has the opposite sign of `omega`. -/
theorem c25_coasting {a b c j tau : K} {rs : List K} (h : PolyParams a b c j tau rs) (t w : K) :
    w * (polyOf a b c j tau rs).mechanicalOde t w 0 ≤ 0 := by
  have := c25_opposes h w
  have hj := (polyOf_ok h).j
  unfold Poly.mechanicalOde
  rw [zero_sub, mul_div_assoc', mul_neg]
  exact div_nonpos_of_nonpos_of_nonneg (by linarith) hj.le

/-- C25: continuous in the speed, in particular at the switch to the linear approximation. -/
theorem c25_continuous {a b c j tau : ℝ} {rs : List ℝ} (h : PolyParams a b c j tau rs) :
    Continuous (polyOf a b c j tau rs).staticLoad := by
  have : (polyOf a b c j tau rs).staticLoad = friction a b c ((j + rs.sum) / tau) := funext (c25_friction h)
  rw [this]
  unfold friction
  fun_prop

example : PolyParams (1 / 100 : ℚ) (1 / 20) (1 / 10) (1 / 100000) (1 / 1000) [1 / 100] := by
  constructor <;> norm_num

/-! ## C27 for the load -/

/-- C27 violated: with the default `a = 0` the Jacobian at standstill contains the slope of the regularised Coulomb
friction although there is none: it differs from the derivative by `1/tau_decay`. -/
theorem c27_load_standstill_violated {b c j tau t T : ℝ} {rs : List ℝ} (h : PolyParams 0 b c j tau rs) :
    HasDerivAt (fun w => (polyOf 0 b c j tau rs).mechanicalOde t w T) (-b / (j + rs.sum)) 0 ∧
    ((polyOf 0 b c j tau rs).mechanicalJacobian t 0 T).1 = -b / (j + rs.sum) - 1 / tau ∧ 1 / tau ≠ 0 := by
  have e := polyOf_fields 0 b c tau rs j
  have hok := polyOf_ok h
  have hj : j + rs.sum ≠ 0 := by rw [← e.2.2.2.2]; exact hok.j.ne'
  have ht := h.tau.ne'
  refine ⟨?_, ?_, one_div_ne_zero ht⟩
  · have hf : (fun w => (polyOf 0 b c j tau rs).mechanicalOde t w T) =
        fun w => (T - (c * (w * |w|) + b * w)) / (j + rs.sum) := by
      funext w
      unfold Poly.mechanicalOde
      rw [c25_friction h, e.2.2.2.2]
      unfold friction
      have : max (-(0 : ℝ)) (min 0 ((j + rs.sum) / tau * w)) = 0 := by
        rw [neg_zero]; exact max_eq_left (min_le_left _ _)
      rw [this, add_zero]
    rw [hf]
    have hsq : HasDerivAt (fun w : ℝ => w * |w|) 0 0 := by
      rw [hasDerivAt_iff_tendsto_slope]
      have : Filter.Tendsto (fun w : ℝ => |w|) (nhdsWithin 0 {0}ᶜ) (nhds 0) := by
        have := (continuous_abs (G := ℝ)).tendsto 0
        rw [abs_zero] at this
        exact this.mono_left nhdsWithin_le_nhds
      refine this.congr' ?_
      filter_upwards [self_mem_nhdsWithin] with w hw
      have hw : w ≠ 0 := hw
      simp only [slope, vsub_eq_sub, sub_zero, abs_zero, mul_zero, smul_eq_mul]
      field_simp
    have h1 := (((hsq.const_mul c).add ((hasDerivAt_id (0 : ℝ)).const_mul b)).const_sub T).div_const (j + rs.sum)
    exact h1.congr_deriv (by ring)
  · unfold Poly.mechanicalJacobian
    simp only [e.1, e.2.1, e.2.2.1, e.2.2.2.1, e.2.2.2.2, abs_zero, zero_mul, zero_div, lt_irrefl, if_false]
    field_simp
    ring

/-- The derivative of `w * |w|`. -/
theorem hasDerivAt_mul_abs (w : ℝ) : HasDerivAt (fun w : ℝ => w * |w|) (2 * |w|) w := by
  rcases lt_trichotomy w 0 with h | h | h
  · have h1 : HasDerivAt (fun w : ℝ => -(w ^ 2)) (2 * |w|) w := by
      exact (hasDerivAt_pow 2 w).fun_neg.congr_deriv (by rw [abs_of_neg h]; push_cast; ring)
    refine h1.congr_of_eventuallyEq ?_
    filter_upwards [gt_mem_nhds h] with x hx
    rw [abs_of_neg hx]; ring
  · subst h
    rw [hasDerivAt_iff_tendsto_slope]
    have : Filter.Tendsto (fun w : ℝ => |w|) (nhdsWithin 0 {0}ᶜ) (nhds 0) := by
      have := (continuous_abs (G := ℝ)).tendsto 0
      rw [abs_zero] at this
      exact this.mono_left nhdsWithin_le_nhds
    rw [abs_zero, mul_zero]
    refine this.congr' ?_
    filter_upwards [self_mem_nhdsWithin] with w hw
    have hw : w ≠ 0 := hw
    simp only [slope, vsub_eq_sub, sub_zero, abs_zero, mul_zero, smul_eq_mul]
    field_simp
  · have h1 : HasDerivAt (fun w : ℝ => w ^ 2) (2 * |w|) w := by
      exact (hasDerivAt_pow 2 w).congr_deriv (by rw [abs_of_pos h]; push_cast; ring)
    refine h1.congr_of_eventuallyEq ?_
    filter_upwards [lt_mem_nhds h] with x hx
    rw [abs_of_pos hx]; ring

/-- C27 for the polynomial load, partial: at every speed except the two switching speeds `±a*tau_decay/J` of the
Coulomb friction (where the derivative does not exist unless `a = 0`) the Jacobian is the derivative of the mechanical
ODE with respect to the speed.  Missing: the switching speeds, which for `a = 0` is standstill, see
`c27_load_standstill_violated`. -/
theorem c27_load_partial {a b c j tau t T w : ℝ} {rs : List ℝ} (h : PolyParams a b c j tau rs)
    (hw : |w| ≠ a * tau / (j + rs.sum)) :
    HasDerivAt (fun w => (polyOf a b c j tau rs).mechanicalOde t w T)
      ((polyOf a b c j tau rs).mechanicalJacobian t w T).1 w := by
  have e := polyOf_fields a b c tau rs j
  have hok := polyOf_ok h
  have hj : 0 < j + rs.sum := by rw [← e.2.2.2.2]; exact hok.j
  have ht := h.tau
  have hk : 0 < (j + rs.sum) / tau := div_pos hj ht
  have hf : (fun w => (polyOf a b c j tau rs).mechanicalOde t w T) =
      fun w => (T - (c * (w * |w|) + b * w + max (-a) (min a ((j + rs.sum) / tau * w)))) / (j + rs.sum) := by
    funext w
    unfold Poly.mechanicalOde
    rw [c25_friction h, e.2.2.2.2]; rfl
  have hkl : (j + rs.sum) / tau * (a * tau / (j + rs.sum)) = a := by field_simp
  have hm : HasDerivAt (fun w => max (-a) (min a ((j + rs.sum) / tau * w)))
      (if a * tau / (j + rs.sum) < |w| then 0 else (j + rs.sum) / tau) w := by
    generalize (j + rs.sum) / tau = k at *
    generalize a * tau / (j + rs.sum) = lim at *
    by_cases hlt : lim < |w|
    · rw [if_pos hlt]
      rcases lt_abs.1 hlt with h1 | h1
      · refine (hasDerivAt_const w a).congr_of_eventuallyEq ?_
        filter_upwards [lt_mem_nhds h1] with x hx
        have : a ≤ k * x := by rw [← hkl]; exact mul_le_mul_of_nonneg_left hx.le hk.le
        rw [min_eq_left this, max_eq_right (by linarith [h.a])]
      · have h1 : w < -lim := by linarith
        refine (hasDerivAt_const w (-a)).congr_of_eventuallyEq ?_
        filter_upwards [gt_mem_nhds h1] with x hx
        have : k * x ≤ -a := by rw [← hkl, ← mul_neg]; exact mul_le_mul_of_nonneg_left hx.le hk.le
        exact max_eq_left ((min_le_right _ _).trans this)
    · rw [if_neg hlt]
      have h2 : |w| < lim := lt_of_le_of_ne (not_lt.1 hlt) hw
      rw [abs_lt] at h2
      have : HasDerivAt (fun w => k * w) k w := by simpa using (hasDerivAt_id w).const_mul k
      refine this.congr_of_eventuallyEq ?_
      filter_upwards [lt_mem_nhds h2.1, gt_mem_nhds h2.2] with x hx1 hx2
      have h3 : k * x ≤ a := by rw [← hkl]; exact mul_le_mul_of_nonneg_left hx2.le hk.le
      have h4 : -a ≤ k * x := by rw [← hkl, ← mul_neg]; exact mul_le_mul_of_nonneg_left hx1.le hk.le
      rw [min_eq_right h3, max_eq_right h4]
  rw [hf]
  have h1 := (((((hasDerivAt_mul_abs w).const_mul c).add ((hasDerivAt_id w).const_mul b)).add hm).const_sub T).div_const
    (j + rs.sum)
  refine h1.congr_deriv ?_
  unfold Poly.mechanicalJacobian
  simp only [e.1, e.2.1, e.2.2.1, e.2.2.2.1, e.2.2.2.2]
  have := Load.sign_mul w
  congr 1
  linear_combination c * this

/-- C27 for the polynomial load: the second Jacobian is the derivative of the mechanical ODE over the torque. -/
theorem c27_load_torque {a b c j tau t w : ℝ} {rs : List ℝ} (T : ℝ) :
    HasDerivAt (fun T => (polyOf a b c j tau rs).mechanicalOde t w T)
      ((polyOf a b c j tau rs).mechanicalJacobian t w T).2 T := by
  unfold Poly.mechanicalOde Poly.mechanicalJacobian
  exact ((hasDerivAt_id T).sub_const _).div_const _

/-- C27: the constant speed load's Jacobian is right everywhere. -/
theorem c27_const_load (t w T : ℝ) : HasDerivAt (fun w => constOde t w T) (constJacobian t w T).1 w ∧
    HasDerivAt (fun T => constOde t w T) (constJacobian t w T).2 T :=
  ⟨hasDerivAt_const _ _, hasDerivAt_const _ _⟩

/-! ## C26: the other loads -/

/-- C26: under a `ConstantSpeedLoad` the Euler solver never changes the speed, whatever the torque, and every exact
solution of the speed equation is constant. -/
theorem c26_constant_speed (s : Euler K K) (torque : K → K → K) (t : K) (h : 1 ≤ s.nsteps) :
    (s.integrate (fun τ w => constOde τ w (torque τ w)) t).2 = .ok s.y := by
  have := c24_constant_exact (0 : K) s t h
  simpa [constOde] using this

theorem c26_constant_speed_exact (w : ℝ → ℝ) (torque : ℝ → ℝ) (h : ∀ t, HasDerivAt w (constOde t (w t) (torque t)) t)
    (t t' : ℝ) : w t = w t' :=
  is_const_of_deriv_eq_zero (fun t => (h t).differentiableAt) (fun t => (h t).deriv) t t'

/-- Speed after `n` Euler steps of width `tau` from a reset under an `ExternalSpeedLoad`. -/
def externalRun (profile : K → K) (tau : K) (torque : K → K → K) (s : Euler K K) : ℕ → Euler K K
  | 0 => s.setInitialValue (externalReset profile) 0
  | n + 1 =>
    let s' := externalRun profile tau torque s n
    (s'.integrate (fun t w => externalOde profile tau t w (torque t w)) (s'.t + tau)).1

/-- C26: with one Euler step per sampling time the speed equals the profile at every sampling time `n*tau`, for every
profile and every torque. -/
theorem c26_external_speed (profile : K → K) (tau : K) (ht : tau ≠ 0) (torque : K → K → K) (s : Euler K K)
    (hs : s.nsteps = 1) (n : ℕ) :
    (externalRun profile tau torque s n).y = profile (n * tau) := by
  have : externalRun profile tau torque s n = ⟨n * tau, profile (n * tau), 1⟩ := by
    induction n with
    | zero => simp [externalRun, Euler.setInitialValue, externalReset, hs]
    | succ n ih =>
      simp only [externalRun]
      rw [ih, c24_one_step _ _ _ rfl]
      simp only [eulerIter, externalOde, smul_eq_mul, Nat.cast_succ, Euler.mk.injEq, and_true]
      have e : (n : K) * tau + tau = (n + 1) * tau := by ring
      refine ⟨e, ?_⟩
      rw [e]
      field_simp
      ring
  rw [this]

/-- C26, limit of the claim: if the sampling interval is integrated in two pieces (converter with interlocking time
`d`), the profile is missed, e.g. for the profile `k*t²` by `k*d*(tau² - d²)/tau`. -/
theorem c26_external_interlocking_violated (k tau d : K) (ht : tau ≠ 0) (torque : K → K → K) :
    let f := fun t w => externalOde (fun t => k * t ^ 2) tau t w (torque t w)
    let s1 := ((⟨0, 0, 1⟩ : Euler K K).integrate f d).1
    (s1.integrate f tau).2 = .ok (k * tau ^ 2 + k * d * (tau ^ 2 - d ^ 2) / tau) := by
  intro f s1
  have h1 : s1 = ⟨d, d * k * tau, 1⟩ := by
    simp only [s1]
    rw [c24_one_step _ _ _ rfl]
    simp only [eulerIter, f, externalOde, smul_eq_mul, Euler.mk.injEq, and_true, true_and]
    field_simp
    ring
  rw [h1, c24_one_step _ _ _ rfl]
  simp only [eulerIter, f, externalOde, smul_eq_mul]
  congr 1
  field_simp
  ring

/-- C26 violated: no `OrnsteinUhlenbeckLoad` can be constructed; the constructor reads `_omega_range` before it is set. -/
theorem c26_ou_violated (mu sigma theta tau : K) (range : K × K) (draw : K → K → K) :
    OU.new mu sigma theta tau range draw = .error .attribute := rfl

/-- C26, partial: the Ornstein-Uhlenbeck speed equation itself keeps the speed inside its range for one Euler step of
its own `tau`, for every noise sample.  Missing: the object cannot be constructed (`c26_ou_violated`). -/
theorem c26_ou_range_partial (theta mu sigma tau root w noise : K) (range : K × K) (ht : 0 < tau)
    (hr : range.1 ≤ range.2) :
    range.1 ≤ w + tau * ouOde theta mu sigma tau root range w noise ∧
    w + tau * ouOde theta mu sigma tau root range w noise ≤ range.2 := by
  unfold ouOde clip
  simp only []
  generalize theta * (mu - w) * tau + sigma * root * noise = d
  have e1 : tau * ((range.1 - w) / tau) = range.1 - w := by field_simp
  have e2 : tau * ((range.2 - w) / tau) = range.2 - w := by field_simp
  have hm : (range.1 - w) / tau ≤ (range.2 - w) / tau := by
    apply div_le_div_of_nonneg_right _ ht.le; linarith
  have lo : (range.1 - w) / tau ≤ min (max d ((range.1 - w) / tau)) ((range.2 - w) / tau) :=
    le_min (le_max_right _ _) hm
  have hi : min (max d ((range.1 - w) / tau)) ((range.2 - w) / tau) ≤ (range.2 - w) / tau := min_le_right _ _
  have lo' := mul_le_mul_of_nonneg_left lo ht.le
  have hi' := mul_le_mul_of_nonneg_left hi ht.le
  constructor <;> linarith

end load

end GEM.Props
