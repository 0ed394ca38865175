import Mathlib.Tactic.Ring
import Mathlib.Tactic.FieldSimp
import Mathlib.Tactic.Linarith
import Mathlib.Tactic.Positivity
import Mathlib.Tactic.Module
import Verif.Spec.Plant
import Verif.Model.Solvers
import Verif.Model.Supplies
import Verif.Model.Loads

/-! # Helper lemmas for solvers, supplies and loads -/

set_option linter.unusedSectionVars false

namespace GEM

section euler
open GEM.Solver GEM.Spec
variable {K : Type*} [Field K] {Y : Type*} [AddCommGroup Y] [Module K Y]

theorem Solver.nstepsLoop_eq (f : K → Y → Y) (h d : K) (n : ℕ) : ∀ (t : K) (y : Y),
    nstepsLoop f h n (t + d) y = eulerIter (fun s y => f (s + d + h) y) h n t y := by
  induction n with
  | zero => intro t y; rfl
  | succ n ih =>
    intro t y
    simp only [nstepsLoop, eulerIter]
    rw [← ih, show t + h + d = t + d + h by ring]

theorem Spec.eulerIter_congr (f g : K → Y → Y) (h : K) (H : ∀ t y, f t y = g t y) (n : ℕ) : ∀ (t : K) (y : Y),
    eulerIter f h n t y = eulerIter g h n t y := by
  induction n with
  | zero => intro t y; rfl
  | succ n ih => intro t y; simp only [eulerIter, H, ih]

theorem Spec.eulerIter_const (c : Y) (h : K) (n : ℕ) : ∀ (t : K) (y : Y),
    eulerIter (fun _ _ => c) h n t y = y + ((n : K) * h) • c := by
  induction n with
  | zero => intro t y; simp [eulerIter]
  | succ n ih =>
    intro t y
    simp only [eulerIter, ih, Nat.cast_succ]
    module

end euler

section rc
open GEM.Supply GEM.Spec
variable {K : Type*} [Field K] [LinearOrder K] [IsStrictOrderedRing K]

theorem Supply.RC.getVoltage_eq (s : RC K) (t i : K) :
    s.getVoltage t i = ({ s with solver := ⟨t, s.solver.y + (t - s.solver.t) * ((s.u0 - s.solver.y - s.r * i) / (s.r * s.c)),
      s.solver.nsteps⟩ }, s.solver.y + (t - s.solver.t) * ((s.u0 - s.solver.y - s.r * i) / (s.r * s.c))) := rfl

theorem Supply.rc_step_range {u0 r c y d i : K} (hr : 0 < r) (hc : 0 < c) (hy : 0 ≤ y ∧ y ≤ u0)
    (hd : 0 ≤ d ∧ d ≤ r * c) (hi : 0 ≤ i ∧ i ≤ u0 / r) :
    0 ≤ y + d * ((u0 - y - r * i) / (r * c)) ∧ y + d * ((u0 - y - r * i) / (r * c)) ≤ u0 := by
  have hrc : 0 < r * c := mul_pos hr hc
  have hri : r * i ≤ u0 := by
    have := hi.2; rw [le_div_iff₀ hr] at this; linarith
  have hri0 : 0 ≤ r * i := mul_nonneg hr.le hi.1
  obtain ⟨q, hq⟩ : ∃ q, q = d / (r * c) := ⟨_, rfl⟩
  have hq0 : 0 ≤ q := by rw [hq]; exact div_nonneg hd.1 hrc.le
  have hq1 : q ≤ 1 := by rw [hq, div_le_one hrc]; exact hd.2
  have e : y + d * ((u0 - y - r * i) / (r * c)) = (1 - q) * y + q * (u0 - r * i) := by
    rw [hq]; field_simp; ring
  rw [e]
  constructor
  · have h1 := mul_nonneg (sub_nonneg.2 hq1) hy.1
    have h2 := mul_nonneg hq0 (sub_nonneg.2 hri)
    linarith
  · have h1 := mul_nonneg (sub_nonneg.2 hq1) (sub_nonneg.2 hy.2)
    have h2 := mul_nonneg hq0 hri0
    nlinarith
end rc

section load
open GEM.Load GEM.Spec
variable {K : Type*} [Field K] [LinearOrder K] [IsStrictOrderedRing K]

theorem Load.sign_mul_sq (c w : K) : sign w * c * w ^ 2 = c * (w * |w|) := by
  unfold sign
  rcases lt_trichotomy w 0 with h | h | h
  · rw [if_neg h.not_gt, if_pos h, abs_of_neg h]; ring
  · subst h; simp
  · rw [if_pos h, abs_of_pos h]; ring

theorem Load.sign_mul (w : K) : 2 * sign w * w = 2 * |w| := by
  unfold sign
  rcases lt_trichotomy w 0 with h | h | h
  · rw [if_neg h.not_gt, if_pos h, abs_of_neg h]; ring
  · subst h; simp
  · rw [if_pos h, abs_of_pos h]; ring

/-- Threshold and slope of the regularisation belong to the present inertia. -/
structure Load.Poly.Ok (l : Poly K) : Prop where
  a : 0 ≤ l.a
  b : 0 ≤ l.b
  c : 0 ≤ l.c
  j : 0 < l.jTotal
  tau : 0 < l.tauDecay
  lim : l.omegaLim = l.a / l.jTotal * l.tauDecay
  fac : l.linearFactor = l.jTotal / l.tauDecay

theorem Load.Poly.ok_new {a b c j tau : K} (ha : 0 ≤ a) (hb : 0 ≤ b) (hc : 0 ≤ c) (hj : 0 < j) (ht : 0 < tau) :
    (Poly.new a b c j tau).Ok := ⟨ha, hb, hc, hj, ht, rfl, rfl⟩

theorem Load.Poly.ok_setJRotor {l : Poly K} (h : l.Ok) {j : K} (hj : 0 ≤ j) : (l.setJRotor j).Ok :=
  ⟨h.a, h.b, h.c, add_pos_of_pos_of_nonneg h.j hj, h.tau, rfl, rfl⟩

theorem Load.Poly.ok_foldl (js : List K) (hjs : ∀ j ∈ js, 0 ≤ j) : ∀ {l : Poly K}, l.Ok →
    (js.foldl Poly.setJRotor l).Ok := by
  induction js with
  | nil => intro l h; exact h
  | cons j js ih =>
    intro l h
    exact ih (fun x hx => hjs x (List.mem_cons_of_mem _ hx)) (ok_setJRotor h (hjs j List.mem_cons_self))

theorem Load.Poly.staticLoad_eq {l : Poly K} (h : l.Ok) (w : K) :
    l.staticLoad w = friction l.a l.b l.c (l.jTotal / l.tauDecay) w := by
  have hk : 0 < l.jTotal / l.tauDecay := div_pos h.j h.tau
  have hkl : l.jTotal / l.tauDecay * l.omegaLim = l.a := by
    rw [h.lim]; have := h.j.ne'; have := h.tau.ne'; field_simp
  unfold staticLoad friction
  simp only []
  rw [sign_mul_sq, h.fac]
  congr 1
  generalize hkk : l.jTotal / l.tauDecay = k at *
  by_cases hw : l.omegaLim < |w|
  · rw [if_pos hw]
    rcases lt_trichotomy w 0 with h0 | h0 | h0
    · rw [abs_of_neg h0] at hw
      have h1 : k * w ≤ -l.a := by nlinarith
      have : sign w = -1 := by unfold sign; rw [if_neg h0.not_gt, if_pos h0]
      rw [this, min_eq_right (by linarith [h.a]), max_eq_left h1]; ring
    · subst h0
      rw [abs_zero] at hw
      have h1 : l.a < 0 := by rw [← hkl]; exact mul_neg_of_pos_of_neg hk hw
      exact absurd h.a (not_le.2 h1)
    · rw [abs_of_pos h0] at hw
      have h1 : l.a ≤ k * w := by nlinarith
      have : sign w = 1 := by unfold sign; rw [if_pos h0]
      rw [this, min_eq_left h1, max_eq_right (by linarith [h.a])]; ring
  · rw [if_neg hw]
    rw [not_lt, abs_le] at hw
    have h1 : k * w ≤ l.a := by nlinarith [hw.2]
    have h2 : -l.a ≤ k * w := by nlinarith [hw.1]
    rw [min_eq_right h1, max_eq_right h2]

theorem Spec.friction_odd (a b c k w : K) (ha : 0 ≤ a) : friction a b c k (-w) = -friction a b c k w := by
  unfold friction
  have : max (-a) (min a (k * -w)) = -max (-a) (min a (k * w)) := by
    have e : k * -w = -(k * w) := by ring
    rw [e]
    generalize k * w = x
    rcases le_total x a with h1 | h1
    · rcases le_total (-a) x with h2 | h2
      · rw [min_eq_right h1, max_eq_right h2, min_eq_right (by linarith), max_eq_right (by linarith)]
      · rw [min_eq_right h1, max_eq_left h2, min_eq_left (by linarith), max_eq_right (by linarith)]; ring
    · rw [min_eq_left h1, max_eq_right (show -a ≤ a by linarith), min_eq_right (show -x ≤ a by linarith),
        max_eq_left (show -x ≤ -a by linarith)]
  rw [this, abs_neg]; ring

theorem Spec.friction_mono {a b c k : K} (hb : 0 ≤ b) (hc : 0 ≤ c) (hk : 0 ≤ k) {v w : K}
    (h : v ≤ w) : friction a b c k v ≤ friction a b c k w := by
  unfold friction
  have h1 : v * |v| ≤ w * |w| := by
    rcases le_total 0 v with hv | hv
    · rw [abs_of_nonneg hv, abs_of_nonneg (hv.trans h)]; nlinarith
    · rcases le_total 0 w with hw | hw
      · rw [abs_of_nonpos hv, abs_of_nonneg hw]; nlinarith [mul_self_nonneg v, mul_self_nonneg w]
      · rw [abs_of_nonpos hv, abs_of_nonpos hw]; nlinarith
  have h2 : max (-a) (min a (k * v)) ≤ max (-a) (min a (k * w)) :=
    max_le_max le_rfl (min_le_min le_rfl (mul_le_mul_of_nonneg_left h hk))
  have h3 := mul_le_mul_of_nonneg_left h1 hc
  have h4 := mul_le_mul_of_nonneg_left h hb
  linarith

theorem Spec.friction_zero {a b c k : K} (ha : 0 ≤ a) : friction a b c k 0 = 0 := by
  unfold friction
  rw [mul_zero, mul_zero, min_eq_right ha, max_eq_right (by linarith)]; simp

end load
end GEM
