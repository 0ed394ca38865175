import Verif.Model.Solvers
import Verif.Props.Invariance

/-!
# C98 for the states the Euler solver computes
-/

set_option linter.unusedSectionVars false

namespace GEM.Props

open GEM GEM.Motor GEM.Load GEM.Sys GEM.Solver Set

noncomputable section

/-- a property that every single Euler step keeps is kept by the whole loop, if every point on the way is in the region `R` -/
theorem nstepsLoop_keeps {Y : Type} [AddCommGroup Y] [Module ℝ Y] (f : ℝ → Y → Y) (h : ℝ) (P R : Y → Prop)
    (step : ∀ t y, P y → R y → P (y + h • f t y)) :
    ∀ (n : ℕ) (t : ℝ) (y : Y), P y → (∀ k < n, R (nstepsLoop f h k t y)) → P (nstepsLoop f h n t y) := by
  intro n
  induction n with
  | zero => intro t y hp _; exact hp
  | succ n ih =>
    intro t y hp hr
    refine ih _ _ (step _ _ hp (hr 0 (by omega))) fun k hk => ?_
    exact hr (k + 1) (by omega)

/-- the points of an Euler solver on its way to the time `t`: the start and the intermediate ones -/
def EulerPoints {Y : Type} [AddCommGroup Y] [Module ℝ Y] (f : ℝ → Y → Y) (s : Euler ℝ Y) (t : ℝ) (y : Y) : Prop :=
  ∃ k < s.nsteps, y = nstepsLoop f ((t - s.t) / s.nsteps) k t s.y

/-- the same for a call of `integrate` with right-hand sides that do not depend on the time -/
theorem integrate_keeps {Y : Type} [AddCommGroup Y] [Module ℝ Y] (f : ℝ → Y → Y) (hf : ∀ t t' y, f t y = f t' y) (s : Euler ℝ Y) (t : ℝ)
    (hn : 0 < s.nsteps) (P R : Y → Prop) (step : ∀ t' y, P y → R y → P (y + ((t - s.t) / s.nsteps) • f t' y)) (h0 : P s.y)
    (hr : ∀ y, EulerPoints f s t y → R y) :
    ∃ y, s.integrate f t = ({ s with t := t, y := y }, .ok y) ∧ P y := by
  have hk := nstepsLoop_keeps f _ P R step s.nsteps t s.y h0 fun k hk => hr _ ⟨k, hk, rfl⟩
  unfold Euler.integrate
  split_ifs with h1 h2
  · refine ⟨s.y + (t - s.t) • f s.t s.y, rfl, ?_⟩
    rw [h1] at hk
    simp only [nstepsLoop, Nat.cast_one, div_one] at hk
    rw [hf s.t (t + (t - s.t))]
    exact hk
  · omega
  · exact ⟨_, rfl, hk⟩

/-- torque of the load at a non-negative speed: at most linear with this slope -/
theorem poly_slope {a b c j tau : ℝ} {rs : List ℝ} (h : PolyParams a b c j tau rs) (w W : ℝ) (hw : 0 ≤ w) (hW : w ≤ W) :
    (polyOf a b c j tau rs).staticLoad w ≤ ((j + rs.sum) / tau + b + c * W) * w := by
  obtain ⟨e1, e2, e3, e4, e5⟩ := polyOf_fields a b c tau rs j
  have hok := polyOf_ok h
  have hJ : 0 < j + rs.sum := by rw [← e5]; exact hok.j
  have h1 : sign w * c * w ^ 2 + b * w ≤ (b + c * W) * w := by
    rcases hw.eq_or_lt with rfl | hw'
    · simp
    · rw [sign, if_pos hw']
      have := mul_nonneg (mul_nonneg h.c hw) (sub_nonneg.mpr hW)
      nlinarith
  simp only [Poly.staticLoad]
  rw [e1, e2, e3]
  have h2 : (if (polyOf a b c j tau rs).omegaLim < |w| then sign w * a else (polyOf a b c j tau rs).linearFactor * w)
      ≤ (j + rs.sum) / tau * w := by
    rw [hok.lim, hok.fac, e1, e4, e5]
    split_ifs with hl
    · rw [abs_of_nonneg hw] at hl
      have hw' : 0 < w := lt_of_le_of_lt (by have := h.a; have := h.tau; positivity) hl
      rw [sign, if_pos hw', one_mul]
      have : a = (j + rs.sum) / tau * (a / (j + rs.sum) * tau) := by
        have := h.tau
        field_simp
      rw [this]
      exact mul_le_mul_of_nonneg_left hl.le (div_nonneg hJ.le h.tau.le)
    · exact le_rfl
  linarith

/-- one Euler step of the system with a series motor -/
theorem series_step (mp : DcParams ℝ) {a b c j tau : ℝ} {rs : List ℝ} (t h : ℝ) (y : Fin 2 → ℝ) (u : Fin 1 → ℝ) :
    (y + h • (systemEquation (polyMech a b c j tau rs) (seriesTorque mp) (seriesOde mp) 0 none t y u : Fin 2 → ℝ)) =
    ![y 0 + h * ((mp.lePrime * (y 1 * y 1) - (polyOf a b c j tau rs).staticLoad (y 0)) / (polyOf a b c j tau rs).jTotal),
      y 1 + h * ((-(mp.ra + mp.re) * y 1 - mp.lePrime * (y 0 * y 1) + u 0) / (mp.la + mp.le))] := by
  funext k
  fin_cases k
  · show y 0 + h * ((polyOf a b c j tau rs).mechanicalOde t (y 0) (seriesTorque mp fun i => y (Fin.natAdd 1 i))) = _
    have : seriesTorque mp (fun i => y (Fin.natAdd 1 i)) = mp.lePrime * (y 1 * y 1) := by
      simp only [seriesTorque, dcTorque]
      show mp.lePrime * y 1 * y 1 = _
      ring
    rw [this]
    rfl
  · show y 1 + h * seriesOde mp ![y 1] u (y 0) 0 = _
    rw [seriesOde_eq]
    rfl

/-- C98 for a series motor with a polynomial load and the Euler solver: in every call of `integrate`, whatever the number of steps, the announced
signs are kept if the steps are short: shorter than the decay time of the static friction and than the time constant of the current at
the largest speed `W` on the way. -/
theorem c98_series_euler (mp : DcParams ℝ) (hl : 0 ≤ mp.lePrime) (hL : 0 < mp.la + mp.le)
    {a b c j tau : ℝ} {rs : List ℝ} (h : PolyParams a b c j tau rs) (cur volt : ℕ → ℝ) (hcv : cur 0 ≠ -1 → volt 0 ≠ -1)
    (u : Fin 1 → ℝ) (hu : volt 0 ≠ -1 → 0 ≤ u 0) (s : Euler ℝ (Fin 2 → ℝ)) (t W : ℝ) (hn : 0 < s.nsteps) (ht : s.t ≤ t)
    (hW : ∀ y, EulerPoints (fun t y => systemEquation (polyMech a b c j tau rs) (seriesTorque mp) (seriesOde mp) 0 none t y u) s t y → y 0 ≤ W)
    (h1 : (t - s.t) / s.nsteps * (mp.ra + mp.re + mp.lePrime * W) ≤ mp.la + mp.le)
    (h2 : (t - s.t) / s.nsteps * (1 / tau + (b + c * W) / (j + rs.sum)) ≤ 1)
    (h0 : Respects (Space.series cur volt) (seriesValue mp u s.y)) :
    ∃ y, s.integrate (fun t y => systemEquation (polyMech a b c j tau rs) (seriesTorque mp) (seriesOde mp) 0 none t y u) t =
      ({ s with t := t, y := y }, .ok y) ∧ Respects (Space.series cur volt) (seriesValue mp u y) := by
  have hd : 0 ≤ (t - s.t) / s.nsteps := by
    have : (0 : ℝ) ≤ s.nsteps := by positivity
    exact div_nonneg (by linarith) this
  have hT : ∀ i : ℝ, 0 ≤ seriesTorque mp ![i] := by
    intro i
    have : seriesTorque mp ![i] = mp.lePrime * (i * i) := by
      simp [seriesTorque, dcTorque]
      ring
    rw [this]
    exact mul_nonneg hl (mul_self_nonneg i)
  have conv : ∀ y : Fin 2 → ℝ, (0 ≤ y 0 ∧ (cur 0 ≠ -1 → 0 ≤ y 1)) ↔ Respects (Space.series cur volt) (seriesValue mp u y) := by
    intro y
    constructor
    · rintro ⟨hy, hy'⟩ e he hz
      simp only [Space.series, List.mem_cons, List.not_mem_nil, or_false] at he
      rcases he with rfl | rfl | rfl | rfl
      · exact hy
      · exact hT _
      · exact hy' fun hc => by simp [Space.signed, hc] at hz
      · exact hu fun hc => by simp [Space.signed, hc] at hz
    · intro hr
      refine ⟨hr ("omega", 0) (by simp [Space.series]) rfl, fun hc => ?_⟩
      exact hr ("i", Space.signed (cur 0)) (by simp [Space.series]) (by simp [Space.signed, hc])
  simp only [← conv] at h0 ⊢
  obtain ⟨-, -, -, -, e5⟩ := polyOf_fields a b c tau rs j
  have hJ : 0 < j + rs.sum := by rw [← e5]; exact (polyOf_ok h).j
  refine integrate_keeps _ (fun _ _ _ => rfl) s t hn _ (fun y => y 0 ≤ W) ?_ h0 hW
  rintro t' y ⟨hy, hy'⟩ hyW
  rw [series_step mp]
  generalize (t - s.t) / s.nsteps = d at *
  constructor
  · show 0 ≤ y 0 + d * _
    rw [e5]
    have h3 := poly_slope h (y 0) W hy hyW
    have h4 : 0 ≤ d * (mp.lePrime * (y 1 * y 1)) / (j + rs.sum) :=
      div_nonneg (mul_nonneg hd (mul_nonneg hl (mul_self_nonneg _))) hJ.le
    have h5 : d * (polyOf a b c j tau rs).staticLoad (y 0) / (j + rs.sum) ≤ d * (1 / tau + (b + c * W) / (j + rs.sum)) * y 0 := by
      have ht := h.tau
      rw [div_le_iff₀ hJ]
      calc _ ≤ d * (((j + rs.sum) / tau + b + c * W) * y 0) := mul_le_mul_of_nonneg_left h3 hd
        _ = _ := by field_simp; ring
    have h6 := mul_le_mul_of_nonneg_right h2 hy
    have : d * ((mp.lePrime * (y 1 * y 1) - (polyOf a b c j tau rs).staticLoad (y 0)) / (j + rs.sum)) =
        d * (mp.lePrime * (y 1 * y 1)) / (j + rs.sum) - d * (polyOf a b c j tau rs).staticLoad (y 0) / (j + rs.sum) := by ring
    linarith
  · intro hc
    show 0 ≤ y 1 + d * _
    have i0 := hy' hc
    have u0 := hu (hcv hc)
    have h3 : d * (mp.ra + mp.re + mp.lePrime * y 0) ≤ mp.la + mp.le :=
      le_trans (mul_le_mul_of_nonneg_left (by have := mul_le_mul_of_nonneg_left hyW hl; linarith) hd) h1
    have h4 := mul_le_mul_of_nonneg_right h3 i0
    have : y 1 + d * ((-(mp.ra + mp.re) * y 1 - mp.lePrime * (y 0 * y 1) + u 0) / (mp.la + mp.le)) =
        (((mp.la + mp.le) * y 1 - d * (mp.ra + mp.re + mp.lePrime * y 0) * y 1) + d * u 0) / (mp.la + mp.le) := by
      field_simp
      ring
    rw [this]
    apply div_nonneg _ hL.le
    have := mul_nonneg hd u0
    linarith

/-- the default series motor with a one-quadrant converter, up to its speed limit, in steps of 0.1 ms -/
example (u : Fin 1 → ℝ) (hu : 0 ≤ u 0) (y : Fin 2 → ℝ) (t : ℝ) (hw : 0 ≤ y 0) (hw' : y 0 ≤ 400) (hi : 0 ≤ y 1) :
    ∃ y', (Euler.integrate (fun t y => (systemEquation (polyMech (1 / 100) (1 / 100) 0 (1 / 100000) (1 / 1000) [25 / 10000])
      (seriesTorque ⟨16 / 1000, 48 / 1000, 19 / 1000000, 54 / 10000, 17 / 10000⟩)
      (seriesOde ⟨16 / 1000, 48 / 1000, 19 / 1000000, 54 / 10000, 17 / 10000⟩) 0 none t y u : Fin 2 → ℝ)) ⟨t, y, 1⟩ (t + 1 / 10000)).2 = .ok y' ∧
      0 ≤ y' 0 ∧ 0 ≤ y' 1 := by
  obtain ⟨y', h1, h2⟩ := c98_series_euler ⟨16 / 1000, 48 / 1000, 19 / 1000000, 54 / 10000, 17 / 10000⟩ (by norm_num) (by norm_num)
    (a := 1 / 100) (b := 1 / 100) (c := 0) (j := 1 / 100000) (tau := 1 / 1000) (rs := [25 / 10000])
    ⟨by norm_num, by norm_num, by norm_num, by norm_num, by norm_num, by simp; norm_num⟩ (fun _ => 0) (fun _ => 0) (by norm_num) u (fun _ => hu)
    ⟨t, y, 1⟩ (t + 1 / 10000) 400 (by norm_num) (by norm_num) (by
      rintro z ⟨k, hk, rfl⟩
      have hk : k = 0 := by simp only at hk; omega
      subst hk
      exact hw')
    (by norm_num) (by norm_num) (by
      intro e he _
      simp only [Space.series, List.mem_cons, List.not_mem_nil, or_false] at he
      rcases he with rfl | rfl | rfl | rfl
      · exact hw
      · simp only [seriesValue, seriesTorque, dcTorque]
        norm_num
        positivity
      · exact hi
      · exact hu)
  refine ⟨y', by rw [h1], ?_, ?_⟩
  · exact h2 ("omega", 0) (by simp [Space.series]) rfl
  · exact h2 ("i", Space.signed 0) (by simp [Space.series]) (by simp [Space.signed])

/-- numbers for the violations: steps of 0.1 s at standstill, of 2 ms with static friction -/
example : (19 : ℝ) / 1000000 + 54 / 10000 < 1 / 10 * (16 / 1000 + 48 / 1000 + 17 / 10000 * 0) ∧ (1 : ℝ) / 1000 < 2 / 1000 := by norm_num

/-- C98 is violated by longer steps: the current becomes negative in one step without voltage -/
theorem c98_series_euler_violated (mp : DcParams ℝ) (hL : 0 < mp.la + mp.le) {a b c j tau : ℝ} {rs : List ℝ}
    (s : Euler ℝ (Fin 2 → ℝ)) (t : ℝ) (hn : s.nsteps = 1) (hi : 0 < s.y 1)
    (h1 : mp.la + mp.le < (t - s.t) * (mp.ra + mp.re + mp.lePrime * s.y 0)) :
    ∃ s' y, s.integrate (fun t y => systemEquation (polyMech a b c j tau rs) (seriesTorque mp) (seriesOde mp) 0 none t y ![0]) t = (s', .ok y) ∧
      ¬ Respects (Space.series (fun _ => 0) (fun _ => 0)) (seriesValue mp ![0] y) := by
  unfold Euler.integrate
  rw [if_pos hn]
  refine ⟨_, _, rfl, fun hr => ?_⟩
  have h2 : (0 : ℝ) ≤ ((s.integrateOneStep (fun t y => (systemEquation (polyMech a b c j tau rs) (seriesTorque mp) (seriesOde mp) 0 none t y ![0] :
      Fin 2 → ℝ)) t).y) 1 := hr ("i", Space.signed 0) (by simp [Space.series]) (by simp [Space.signed])
  simp only [Euler.integrateOneStep] at h2
  rw [series_step mp] at h2
  have h3 : (0 : ℝ) ≤ s.y 1 + (t - s.t) * ((-(mp.ra + mp.re) * s.y 1 - mp.lePrime * (s.y 0 * s.y 1) + 0) / (mp.la + mp.le)) := h2
  have : s.y 1 + (t - s.t) * ((-(mp.ra + mp.re) * s.y 1 - mp.lePrime * (s.y 0 * s.y 1) + 0) / (mp.la + mp.le)) =
      ((mp.la + mp.le) - (t - s.t) * (mp.ra + mp.re + mp.lePrime * s.y 0)) * s.y 1 / (mp.la + mp.le) := by
    field_simp
    ring
  rw [this] at h3
  exact absurd h3 (not_le.mpr (div_neg_of_neg_of_pos (mul_neg_of_neg_of_pos (by linarith) hi) hL))

/-- C98 is violated by steps longer than the decay time of the static friction: a coasting motor turns backwards after one step -/
theorem c98_friction_euler_violated (mp : DcParams ℝ) {a b c j tau : ℝ} {rs : List ℝ} (h : PolyParams a b c j tau rs) (cur volt : ℕ → ℝ)
    (s : Euler ℝ (Fin 2 → ℝ)) (t : ℝ) (u : Fin 1 → ℝ) (hn : s.nsteps = 1) (hi : s.y 1 = 0) (hw : 0 < s.y 0)
    (hw' : s.y 0 ≤ a / (j + rs.sum) * tau) (h1 : tau < t - s.t) :
    ∃ s' y, s.integrate (fun t y => systemEquation (polyMech a b c j tau rs) (seriesTorque mp) (seriesOde mp) 0 none t y u) t = (s', .ok y) ∧
      ¬ Respects (Space.series cur volt) (seriesValue mp u y) := by
  unfold Euler.integrate
  rw [if_pos hn]
  refine ⟨_, _, rfl, fun hr => ?_⟩
  have h2 : (0 : ℝ) ≤ ((s.integrateOneStep (fun t y => (systemEquation (polyMech a b c j tau rs) (seriesTorque mp) (seriesOde mp) 0 none t y u :
      Fin 2 → ℝ)) t).y) 0 := hr ("omega", 0) (by simp [Space.series]) rfl
  simp only [Euler.integrateOneStep] at h2
  rw [series_step mp] at h2
  have h3 : (0 : ℝ) ≤ s.y 0 + (t - s.t) * ((mp.lePrime * (s.y 1 * s.y 1) - (polyOf a b c j tau rs).staticLoad (s.y 0)) /
      (polyOf a b c j tau rs).jTotal) := h2
  obtain ⟨e1, e2, e3, e4, e5⟩ := polyOf_fields a b c tau rs j
  have hok := polyOf_ok h
  have hJ : 0 < j + rs.sum := by rw [← e5]; exact hok.j
  have ht := h.tau
  have hload : (j + rs.sum) / tau * s.y 0 ≤ (polyOf a b c j tau rs).staticLoad (s.y 0) := by
    simp only [Poly.staticLoad]
    rw [hok.lim, hok.fac, e1, e2, e3, e4, e5, abs_of_pos hw, if_neg (not_lt.mpr hw'), sign, if_pos hw]
    have := mul_nonneg h.c (sq_nonneg (s.y 0))
    have := mul_nonneg h.b hw.le
    linarith
  rw [hi, e5] at h3
  have h4 : (t - s.t) * ((j + rs.sum) / tau * s.y 0) ≤ s.y 0 * (j + rs.sum) := by
    have := mul_le_mul_of_nonneg_left hload (show 0 ≤ t - s.t by linarith)
    have h5 : s.y 0 + (t - s.t) * ((mp.lePrime * (0 * 0) - (polyOf a b c j tau rs).staticLoad (s.y 0)) / (j + rs.sum)) =
        (s.y 0 * (j + rs.sum) - (t - s.t) * (polyOf a b c j tau rs).staticLoad (s.y 0)) / (j + rs.sum) := by
      field_simp
      ring
    rw [h5] at h3
    have h6 := (div_nonneg_iff.mp h3).resolve_right (fun hc => absurd hc.2 (not_le.mpr hJ))
    linarith [h6.1]
  have h5 : (t - s.t) * ((j + rs.sum) / tau * s.y 0) = (t - s.t) / tau * (s.y 0 * (j + rs.sum)) := by
    field_simp
  rw [h5] at h4
  have h6 : 1 < (t - s.t) / tau := (one_lt_div ht).mpr h1
  have h7 : 0 < s.y 0 * (j + rs.sum) := mul_pos hw hJ
  nlinarith

/-- C98 for the exciting current of a shunt motor with every load and the Euler solver: never negative if the steps are shorter than the
time constant of the exciting circuit -/
theorem c98_excitation_euler (mp : DcParams ℝ) (hL : 0 < mp.le) (mech : (Fin 1 → ℝ) → ℝ → Fin 1 → ℝ) (u : Fin 1 → ℝ) (hu : 0 ≤ u 0)
    (s : Euler ℝ (Fin 3 → ℝ)) (t : ℝ) (hn : 0 < s.nsteps) (ht : s.t ≤ t) (h1 : (t - s.t) / s.nsteps * mp.re ≤ mp.le) (h0 : 0 ≤ s.y 2) :
    ∃ y, s.integrate (fun t y => systemEquation (m := 2) (fun _ => mech) (dcTorque mp) (shuntOde mp) 0 none t y u) t =
      ({ s with t := t, y := y }, .ok y) ∧ 0 ≤ y 2 := by
  have hd : 0 ≤ (t - s.t) / s.nsteps := by
    have : (0 : ℝ) ≤ s.nsteps := by positivity
    exact div_nonneg (by linarith) this
  refine integrate_keeps _ (fun _ _ _ => rfl) s t hn (fun y => 0 ≤ y 2) (fun _ => True) ?_ h0 fun _ _ => trivial
  intro t' y hy _
  show 0 ≤ y 2 + (t - s.t) / s.nsteps * shuntOde mp ![y 1, y 2] u (y 0) 1
  generalize (t - s.t) / s.nsteps = d at *
  rw [shuntOde, dcOde_eq]
  simp only [Matrix.cons_val_one, Matrix.cons_val_zero]
  have h4 := mul_le_mul_of_nonneg_right h1 hy
  have : y 2 + d * ((-mp.re * y 2 + u 0) / mp.le) = ((mp.le * y 2 - d * mp.re * y 2) + d * u 0) / mp.le := by
    field_simp
    ring
  rw [this]
  apply div_nonneg _ hL.le
  have := mul_nonneg hd hu
  linarith

end

end GEM.Props
