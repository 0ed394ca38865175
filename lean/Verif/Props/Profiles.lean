import Verif.Model.Profiles
import Verif.Props.Plant
import Mathlib.Analysis.SpecialFunctions.ExpDeriv
import Mathlib.Analysis.Calculus.Deriv.MeanValue
import Mathlib.MeasureTheory.Integral.IntervalIntegral.FundThmCalculus
import Mathlib.Topology.Algebra.Order.Floor

/-!
# C148: the speed profiles of the example

What the drive does with a profile (`ExternalSpeedLoad`), and what the profiles of `external_speed_profile.py` are.
-/

set_option linter.unusedSectionVars false

namespace GEM.Props

noncomputable section

open GEM GEM.Load GEM.Solver GEM.Profiles

/-! ## Statement -/

/-- a motion of the speed under an `ExternalSpeedLoad`, from a reset on, without the errors of a solver -/
def SpeedMotion (profile : ℝ → ℝ) (tau : ℝ) (torque omega : ℝ → ℝ) : Prop :=
  omega 0 = externalReset profile ∧ ∀ t, 0 ≤ t → HasDerivAt omega (externalOde profile tau t (omega t) (torque t)) t

/-! ## The load -/

theorem speed_le {profile omega torque : ℝ → ℝ} {tau M : ℝ} (ht : 0 < tau) (h : SpeedMotion profile tau torque omega)
    (hM : ∀ t, 0 ≤ t → profile t ≤ M) {t : ℝ} (h0 : 0 ≤ t) : omega t ≤ M := by
  have hd : ∀ s, 0 ≤ s → HasDerivAt (fun s => (omega s - M) * Real.exp (s / tau))
      ((profile (s + tau) - M) / tau * Real.exp (s / tau)) s := by
    intro s hs
    have h1 := (h.2 s hs).sub_const M
    have h2 : HasDerivAt (fun s => Real.exp (s / tau)) (Real.exp (s / tau) * (1 / tau)) s := ((hasDerivAt_id s).div_const tau).exp
    refine (h1.mul h2).congr_deriv ?_
    simp only [externalOde]
    field_simp
    ring
  have hanti : AntitoneOn (fun s => (omega s - M) * Real.exp (s / tau)) (Set.Ici 0) := by
    refine antitoneOn_of_deriv_nonpos (convex_Ici 0) (fun s hs => (hd s hs).continuousAt.continuousWithinAt) ?_ ?_
    · intro s hs
      rw [interior_Ici] at hs
      exact (hd s (le_of_lt hs)).differentiableAt.differentiableWithinAt
    · intro s hs
      rw [interior_Ici] at hs
      rw [(hd s (le_of_lt hs)).deriv]
      refine mul_nonpos_of_nonpos_of_nonneg (div_nonpos_of_nonpos_of_nonneg ?_ ht.le) (Real.exp_pos _).le
      linarith [hM (s + tau) (by linarith [Set.mem_Ioi.1 hs])]
  have h1 := hanti (Set.mem_Ici.2 le_rfl) (Set.mem_Ici.2 h0) h0
  simp only at h1
  have h2 : (omega 0 - M) * Real.exp (0 / tau) ≤ 0 := by
    refine mul_nonpos_of_nonpos_of_nonneg ?_ (Real.exp_pos _).le
    rw [h.1, externalReset]
    linarith [hM 0 le_rfl]
  have h3 : omega t - M ≤ 0 := by
    by_contra hc
    have := mul_pos (lt_of_not_ge hc) (Real.exp_pos (t / tau))
    linarith
  linarith

theorem speed_neg {profile omega torque : ℝ → ℝ} {tau : ℝ} (h : SpeedMotion profile tau torque omega) :
    SpeedMotion (fun t => -profile t) tau torque (fun t => -omega t) := by
  refine ⟨by simp only [h.1, externalReset], fun t ht => (h.2 t ht).neg.congr_deriv ?_⟩
  simp only [externalOde]
  ring

/-- The speed never leaves a band in which the profile stays, whatever the torque. -/
theorem c148_band (profile torque omega : ℝ → ℝ) (tau lo hi : ℝ) (ht : 0 < tau) (h : SpeedMotion profile tau torque omega)
    (hp : ∀ t, 0 ≤ t → lo ≤ profile t ∧ profile t ≤ hi) (t : ℝ) (h0 : 0 ≤ t) : lo ≤ omega t ∧ omega t ≤ hi := by
  refine ⟨?_, speed_le ht h (fun s hs => (hp s hs).2) h0⟩
  have := speed_le ht (speed_neg h) (M := -lo) (fun s hs => by linarith [(hp s hs).1]) h0
  linarith

/-- On a ramp the speed is that of the profile, as long as the profile has not bent within the next sampling time. -/
theorem c148_ramp (profile torque omega : ℝ → ℝ) (tau c s T : ℝ) (ht : 0 < tau) (h : SpeedMotion profile tau torque omega)
    (hp : ∀ t, 0 ≤ t → t ≤ T + tau → profile t = c + s * t) (t : ℝ) (h0 : 0 ≤ t) (hT : t ≤ T) : omega t = profile t := by
  have hd : ∀ r, 0 ≤ r → r ≤ T → HasDerivAt (fun r => (omega r - (c + s * r)) * Real.exp (r / tau)) 0 r := by
    intro r hr hr'
    have h1 := (h.2 r hr).sub (((hasDerivAt_id r).const_mul s).const_add c)
    have h2 : HasDerivAt (fun s => Real.exp (s / tau)) (Real.exp (r / tau) * (1 / tau)) r := ((hasDerivAt_id r).div_const tau).exp
    refine (h1.mul h2).congr_deriv ?_
    simp only [externalOde, hp (r + tau) (by linarith) (by linarith), Pi.sub_apply, id, mul_one]
    field_simp
    ring
  have hc : (omega t - (c + s * t)) * Real.exp (t / tau) = (omega 0 - (c + s * 0)) * Real.exp (0 / tau) :=
    constant_of_has_deriv_right_zero (fun r hr => (hd r hr.1 (hr.2.trans hT)).continuousAt.continuousWithinAt)
      (fun r hr => (hd r hr.1 (hr.2.le.trans hT)).hasDerivWithinAt) t ⟨h0, le_rfl⟩
  rw [h.1, externalReset, hp 0 le_rfl (by linarith), sub_self, zero_mul] at hc
  have := (mul_eq_zero.1 hc).resolve_right (Real.exp_pos _).ne'
  rw [hp t h0 (by linarith)]
  linarith

/-- For every continuous profile there is such a motion. -/
theorem c148_exists (profile torque : ℝ → ℝ) (tau : ℝ) (hc : Continuous profile) : ∃ omega, SpeedMotion profile tau torque omega := by
  have hg : Continuous fun s => Real.exp (s / tau) * (profile (s + tau) / tau) := by fun_prop
  refine ⟨fun t => Real.exp (-(t / tau)) * (profile 0 + ∫ s in (0 : ℝ)..t, Real.exp (s / tau) * (profile (s + tau) / tau)), ?_, fun t _ => ?_⟩
  · simp [externalReset]
  · have h1 : HasDerivAt (fun s => Real.exp (-(s / tau))) (Real.exp (-(t / tau)) * -(1 / tau)) t := ((hasDerivAt_id t).div_const tau).neg.exp
    have h2 := (intervalIntegral.integral_hasDerivAt_right (hg.intervalIntegrable 0 t) hg.aestronglyMeasurable.stronglyMeasurableAtFilter
      hg.continuousAt).const_add (profile 0)
    refine (h1.mul h2).congr_deriv ?_
    have e : Real.exp (-(t / tau)) * Real.exp (t / tau) = 1 := by rw [← Real.exp_add, neg_add_cancel, Real.exp_zero]
    simp only [externalOde]
    linear_combination (profile (t + tau) / tau) * e

/-! ## The profiles -/

theorem fmod_range (x : ℝ) {y : ℝ} (hy : 0 < y) : 0 ≤ fmod x y ∧ fmod x y < y := by
  have h1 := Int.floor_le (x / y)
  have h2 := Int.lt_floor_add_one (x / y)
  rw [le_div_iff₀ hy] at h1
  rw [div_lt_iff₀ hy] at h2
  unfold fmod
  constructor <;> nlinarith

theorem fmod_small {x y : ℝ} (h0 : 0 ≤ x) (h : x < y) : fmod x y = x := by
  have : ⌊x / y⌋ = 0 := Int.floor_eq_zero_iff.2 ⟨div_nonneg h0 (h0.trans h.le), (div_lt_one (h0.trans_lt h)).2 h⟩
  rw [fmod, this, Int.cast_zero, mul_zero, sub_zero]

theorem fmod_add (x : ℝ) {y : ℝ} (hy : y ≠ 0) : fmod (x + y) y = fmod x y := by
  rw [fmod, add_div, div_self hy, Int.floor_add_one, fmod]
  push_cast
  ring

theorem saw_range (t : ℝ) {w : ℝ} (h0 : 0 < w) (h1 : w < 1) : -1 ≤ sawtooth t w ∧ sawtooth t w ≤ 1 := by
  have hp := Real.pi_pos
  obtain ⟨m0, m1⟩ := fmod_range t (y := 2 * Real.pi) (by positivity)
  have hw : 0 < Real.pi * w := by positivity
  have hw' : 0 < Real.pi * (1 - w) := mul_pos hp (by linarith)
  unfold sawtooth
  generalize fmod t (2 * Real.pi) = m at m0 m1 ⊢
  simp only
  split_ifs with h
  · have a : 0 ≤ m / (Real.pi * w) := div_nonneg m0 hw.le
    have b : m / (Real.pi * w) ≤ 2 := by
      rw [div_le_iff₀ hw]
      linarith
    constructor <;> linarith
  · rw [le_div_iff₀ hw', div_le_iff₀ hw']
    constructor <;> nlinarith

theorem saw_period (t : ℝ) (w : ℝ) : sawtooth (t + 2 * Real.pi) w = sawtooth t w := by
  unfold sawtooth
  rw [fmod_add _ (by positivity)]

theorem saw_rises {x w : ℝ} (h0 : 0 ≤ x) (h1 : w ≤ 1) (h : x < w * 2 * Real.pi) : sawtooth x w = x / (Real.pi * w) - 1 := by
  have hx : x < 2 * Real.pi := h.trans_le (by nlinarith [Real.pi_pos])
  unfold sawtooth
  rw [fmod_small h0 hx]
  simp only [h, if_true]

theorem saw_continuous {w : ℝ} (h0 : 0 < w) (h1 : w < 1) : Continuous fun t => sawtooth t w := by
  have hp := Real.pi_pos
  have hw : 0 < 1 - w := by linarith
  have e : (fun t => sawtooth t w) = ((fun x : ℝ => min (2 * x / w - 1) ((w + 1 - 2 * x) / (1 - w))) ∘ Int.fract) ∘ fun t => t / (2 * Real.pi) := by
    funext t
    have hm : fmod t (2 * Real.pi) = 2 * Real.pi * Int.fract (t / (2 * Real.pi)) := by
      rw [fmod, Int.fract]
      field_simp
    simp only [sawtooth, hm, Function.comp]
    generalize Int.fract (t / (2 * Real.pi)) = x
    have e1 : 2 * Real.pi * x / (Real.pi * w) - 1 = 2 * x / w - 1 := by field_simp
    have e2 : (Real.pi * (w + 1) - 2 * Real.pi * x) / (Real.pi * (1 - w)) = (w + 1 - 2 * x) / (1 - w) := by field_simp
    rw [e1, e2]
    have d : (w + 1 - 2 * x) / (1 - w) - (2 * x / w - 1) = 2 * (w - x) / (w * (1 - w)) := by
      field_simp
      ring
    split_ifs with h
    · have hx : x < w := by nlinarith
      have : 0 ≤ 2 * (w - x) / (w * (1 - w)) := div_nonneg (by linarith) (by positivity)
      rw [min_eq_left (by linarith)]
    · have hx : w ≤ x := by
        by_contra hc
        exact h (by nlinarith)
      have : 2 * (w - x) / (w * (1 - w)) ≤ 0 := div_nonpos_of_nonpos_of_nonneg (by linarith) (by positivity)
      rw [min_eq_right (by linarith)]
  rw [e]
  refine Continuous.comp (ContinuousOn.comp_fract'' (Continuous.continuousOn (by fun_prop)) ?_) (by fun_prop)
  have a : (w + 1 - 2 * 0) / (1 - w) ≥ -1 := by
    rw [ge_iff_le, le_div_iff₀ hw]
    linarith
  have b : 2 * 1 / w - 1 ≥ -1 := by
    have : 0 ≤ 2 * 1 / w := by positivity
    linarith
  have c : (w + 1 - 2 * 1) / (1 - w) = -1 := by
    rw [div_eq_iff hw.ne']
    ring
  rw [c, min_eq_right b, mul_zero, zero_div, zero_sub, ← mul_zero (2 : ℝ), min_eq_left a]

/-- Each of the profiles has a motion. -/
theorem c148_motions (amplitude frequency bias tau : ℝ) (torque : ℝ → ℝ) :
    (∃ omega, SpeedMotion (fun t => sinus t frequency amplitude bias) tau torque omega) ∧
    (∃ omega, SpeedMotion (fun t => triangle t amplitude frequency bias) tau torque omega) ∧
    ∃ omega, SpeedMotion (fun t => saw t amplitude frequency bias) tau torque omega := by
  have key : ∀ w : ℝ, 0 < w → w < 1 → Continuous fun t => amplitude * sawtooth (2 * Real.pi * frequency * t) w + bias := fun w h0 h1 =>
    (continuous_const.mul ((saw_continuous h0 h1).comp (by fun_prop : Continuous fun t : ℝ => 2 * Real.pi * frequency * t))).add continuous_const
  exact ⟨c148_exists _ _ _ (by unfold sinus; fun_prop), c148_exists _ _ _ (key _ (by norm_num) (by norm_num)),
    c148_exists _ _ _ (key _ (by norm_num) (by norm_num))⟩

/-- The profiles stay between bias minus amplitude and bias plus amplitude. -/
theorem c148_range (t amplitude frequency bias : ℝ) (ha : 0 ≤ amplitude) :
    ∀ p ∈ [sinus t frequency amplitude bias, triangle t amplitude frequency bias, saw t amplitude frequency bias],
      bias - amplitude ≤ p ∧ p ≤ bias + amplitude := by
  have key : ∀ x : ℝ, -1 ≤ x ∧ x ≤ 1 → bias - amplitude ≤ amplitude * x + bias ∧ amplitude * x + bias ≤ bias + amplitude := by
    rintro x ⟨h1, h2⟩
    constructor <;> nlinarith
  intro p hp
  simp only [List.mem_cons, List.not_mem_nil, or_false] at hp
  rcases hp with rfl | rfl | rfl
  · exact key _ ⟨Real.neg_one_le_sin _, Real.sin_le_one _⟩
  · exact key _ (saw_range _ (by norm_num) (by norm_num))
  · exact key _ (saw_range _ (by norm_num) (by norm_num))

/-- They repeat with the frequency. -/
theorem c148_periodic (t amplitude frequency bias : ℝ) (hf : frequency ≠ 0) :
    sinus (t + 1 / frequency) frequency amplitude bias = sinus t frequency amplitude bias ∧
    triangle (t + 1 / frequency) amplitude frequency bias = triangle t amplitude frequency bias ∧
    saw (t + 1 / frequency) amplitude frequency bias = saw t amplitude frequency bias := by
  have e : 2 * Real.pi * frequency * (t + 1 / frequency) = 2 * Real.pi * frequency * t + 2 * Real.pi := by
    field_simp
  unfold sinus triangle saw
  rw [e, Real.sin_add_two_pi, saw_period, saw_period]
  exact ⟨rfl, rfl, rfl⟩

/-- "inital value is given by bias of the profile" holds for the sine and the constant ... -/
theorem c148_start_partial (amplitude frequency bias tau : ℝ) (torque omega : ℝ → ℝ) :
    (SpeedMotion (fun t => sinus t frequency amplitude bias) tau torque omega → omega 0 = bias) ∧
    (SpeedMotion (fun t => constant t bias) tau torque omega → omega 0 = bias) := by
  refine ⟨fun h => ?_, fun h => h.1⟩
  rw [h.1, externalReset, sinus, mul_zero, Real.sin_zero, mul_zero, zero_add]

/-- ... but not for the triangle and the sawtooth that the example uses: these begin at their lowest value, bias minus amplitude (0 instead of 40). -/
theorem c148_start_violated (amplitude frequency bias tau : ℝ) (torque omega : ℝ → ℝ)
    (h : SpeedMotion (fun t => triangle t amplitude frequency bias) tau torque omega ∨
      SpeedMotion (fun t => saw t amplitude frequency bias) tau torque omega) : omega 0 = bias - amplitude := by
  have z : ∀ w : ℝ, 0 < w → w ≤ 1 → sawtooth 0 w = -1 := fun w hw hw' => by
    rw [saw_rises le_rfl hw' (by positivity), zero_div, zero_sub]
  rcases h with h | h
  · rw [h.1, externalReset, triangle, mul_zero, z _ (by norm_num) (by norm_num)]
    ring
  · rw [h.1, externalReset, saw, mul_zero, z _ (by norm_num) (by norm_num)]
    ring

/-- The speed of the example's drive: within the band of the profile at all times, and on the first rise equal to the profile, a ramp through nine tenths of
the period. -/
theorem c148_example (amplitude frequency bias tau : ℝ) (ha : 0 ≤ amplitude) (hf : 0 < frequency) (ht : 0 < tau) (torque omega : ℝ → ℝ)
    (h : SpeedMotion (fun t => saw t amplitude frequency bias) tau torque omega) :
    (∀ t, 0 ≤ t → bias - amplitude ≤ omega t ∧ omega t ≤ bias + amplitude) ∧
    ∀ t, 0 ≤ t → t + tau < 9 / 10 / frequency → omega t = bias - amplitude + 20 / 9 * amplitude * frequency * t := by
  refine ⟨c148_band _ _ _ _ _ _ ht h fun t _ => c148_range t amplitude frequency bias ha _ (by simp), fun t h0 h1 => ?_⟩
  have hr : ∀ r, 0 ≤ r → r ≤ t + tau → saw r amplitude frequency bias = bias - amplitude + 20 / 9 * amplitude * frequency * r := by
    intro r hr hr'
    have hlt : r * frequency < 9 / 10 := (lt_div_iff₀ hf).1 (hr'.trans_lt h1)
    have hx : 2 * Real.pi * frequency * r < 9 / 10 * 2 * Real.pi := by nlinarith [Real.pi_pos]
    rw [saw, saw_rises (by positivity) (by norm_num) hx]
    field_simp
    ring
  rw [c148_ramp _ _ _ _ _ _ t ht h hr t h0 le_rfl]
  exact hr t h0 (by linarith)

/-- With one Euler step per sampling time (amplitude 40, frequency 5, bias 40, sampling time 10⁻⁴): 0 after the reset, 0.0444 after one step. -/
example (torque : ℝ → ℝ → ℝ) :
    (externalRun (fun t => saw t 40 5 40) (1 / 10000) torque ⟨7, 8, 1⟩ 0).y = 0 ∧
    (externalRun (fun t => saw t 40 5 40) (1 / 10000) torque ⟨7, 8, 1⟩ 1).y = 2 / 45 := by
  rw [c26_external_speed _ _ (by norm_num) _ _ rfl, c26_external_speed _ _ (by norm_num) _ _ rfl]
  have e : ∀ r : ℝ, 0 ≤ r → r * 5 < 9 / 10 → saw r 40 5 40 = 4000 / 9 * r := fun r h0 h1 => by
    rw [saw, saw_rises (by positivity) (by norm_num) (by nlinarith [Real.pi_pos])]
    field_simp
    ring
  constructor
  · rw [e _ (by norm_num) (by norm_num)]
    norm_num
  · rw [e _ (by norm_num) (by norm_num)]
    norm_num

/-- The motion of the example begins with speed 0, not with 40, and reaches 40 in the middle of the rise, after 0.09 s. -/
example : ∃ omega, SpeedMotion (fun t => saw t 40 5 40) (1 / 10000) 0 omega ∧ omega 0 = 0 ∧ omega (9 / 100) = 40 := by
  obtain ⟨-, -, omega, h⟩ := c148_motions 40 5 40 (1 / 10000) 0
  refine ⟨omega, h, ?_, ?_⟩
  · rw [c148_start_violated 40 5 40 _ _ _ (.inr h)]
    norm_num
  · rw [(c148_example 40 5 40 _ (by norm_num) (by norm_num) (by norm_num) _ _ h).2 _ (by norm_num) (by norm_num)]
    norm_num

/-- A motion with the sine profile. -/
example : ∃ omega, SpeedMotion (fun t => sinus t 5 40 40) (1 / 10000) 0 omega ∧ omega 0 = 40 ∧ ∀ t, 0 ≤ t → 0 ≤ omega t ∧ omega t ≤ 80 := by
  obtain ⟨omega, h⟩ := c148_exists (fun t => sinus t 5 40 40) 0 (1 / 10000) (by unfold sinus; fun_prop)
  refine ⟨omega, h, (c148_start_partial 40 5 40 _ _ _).1 h, c148_band _ _ _ _ _ _ (by norm_num) h fun t _ => ?_⟩
  have := c148_range t 40 5 40 (by norm_num) _ (List.mem_cons_self ..)
  constructor <;> linarith [this.1, this.2]

end

end GEM.Props
