import Mathlib.Analysis.Complex.Basic
import Mathlib.Tactic.FieldSimp
import Mathlib.Tactic.LinearCombination
import Mathlib.Tactic.Linarith
import Mathlib.Tactic.Positivity
import Verif.Model.Control

/-!
# C85: the tuned loops
-/

set_option linter.unusedSectionVars false

namespace GEM.Props

open GEM GEM.Ctl

/-- The characteristic equation of a PI controller with gains `p`, `i` (its output is `p e + i ∫ e`), a lag of first order with
time constant `t` and the plant `1 / (l s + r)`. -/
noncomputable def closedLoop (p i l r t : ℝ) (s : ℂ) : ℂ := (l * s + r) * s * (1 + t * s) + p * s + i

/-- All solutions of the characteristic equation decay. -/
def Stable (p i l r t : ℝ) : Prop := ∀ s : ℂ, closedLoop p i l r t s = 0 → s.re < 0

/-- The response of the open loop at the frequency `w` (without resistance). -/
noncomputable def openLoop (p i l t w : ℝ) : ℂ := (p + i / (w * Complex.I)) / (l * (w * Complex.I) * (1 + t * (w * Complex.I)))

/-- The symmetrical optimum: the amplification is 1 at the geometric mean of the two corner frequencies `i / p` and `1 / t`. -/
def SymmetricalOptimum (p i l t : ℝ) : Prop := ∀ w, 0 < w → w ^ 2 = i / p * (1 / t) → Complex.normSq (openLoop p i l t w) = 1

/-- Routh and Hurwitz for the third degree -/
theorem hurwitz3 (c3 c2 c1 c0 : ℝ) (h3 : 0 < c3) (h2 : 0 < c2) (h1 : 0 < c1) (h0 : 0 < c0) (h : c3 * c0 < c2 * c1) (s : ℂ)
    (hs : (c3 : ℂ) * s ^ 3 + c2 * s ^ 2 + c1 * s + c0 = 0) : s.re < 0 := by
  by_contra hx
  have hx : 0 ≤ s.re := not_lt.mp hx
  obtain ⟨x, y⟩ := s
  simp only at hx
  have hre := congrArg Complex.re hs
  have him := congrArg Complex.im hs
  simp [pow_succ] at hre him
  have hre' : c3 * (x ^ 3 - 3 * x * y ^ 2) + c2 * (x ^ 2 - y ^ 2) + c1 * x + c0 = 0 := by linear_combination hre
  have him' : y * (c3 * (3 * x ^ 2 - y ^ 2) + 2 * c2 * x + c1) = 0 := by linear_combination him
  rcases mul_eq_zero.mp him' with hy | hy
  · rw [hy] at hre'
    have : 0 < c3 * x ^ 3 + c2 * x ^ 2 + c1 * x + c0 := by positivity
    nlinarith
  · have e : 8 * c3 ^ 2 * x ^ 3 + 8 * c2 * c3 * x ^ 2 + (2 * c1 * c3 + 2 * c2 ^ 2) * x + (c2 * c1 - c3 * c0) = 0 := by
      linear_combination (-c3) * hre' + (3 * c3 * x + c2) * hy
    have : 0 ≤ 8 * c3 ^ 2 * x ^ 3 + 8 * c2 * c3 * x ^ 2 + (2 * c1 * c3 + 2 * c2 ^ 2) * x := by positivity
    linarith

theorem stable_of (p i l r t : ℝ) (hl : 0 < l) (hr : 0 ≤ r) (ht : 0 < t) (hp : 0 < p) (hi : 0 < i) (h : i * t < p) :
    Stable p i l r t := by
  intro s hs
  refine hurwitz3 (l * t) (l + r * t) (p + r) i (by positivity) (by positivity) (by positivity) hi ?_ s ?_
  · have : 0 ≤ r * t * (p + r) + l * r := by positivity
    nlinarith [mul_lt_mul_of_pos_left h hl]
  · rw [← hs, closedLoop]
    push_cast
    ring

/-- a gain that is not negative passes the setter unchanged -/
theorem gain_pos {x : ℝ} (h : 0 < x) : max x 0 = x := max_eq_left h.le

/-- C85.  The tuned current loop of every axis is stable with the sampling time as lag, whatever the resistance, for every
design parameter above 1. -/
theorem c85_current_stable {n m : ℕ} (kind : Kind) (l : Fin n → ℝ) (tau a : ℝ) (idx : Fin n → Fin m) (j : Fin n) (hl : 0 < l j)
    (ht : 0 < tau) (ha : 1 < a) (r : ℝ) (hr : 0 ≤ r) :
    let b := Base.tuneCurrent kind l tau a idx
    Stable (b.pGain j) (b.iGain j) (l j) r b.tau := by
  intro b
  have ha0 : 0 < a := by linarith
  have hp : 0 < l j / (tau * a) := by positivity
  have hi : 0 < l j / (tau * a) / (tau * a ^ 2) := by positivity
  show Stable (l j / (tau * a)) (max (l j / (tau * a) / (tau * a ^ 2)) 0) (l j) r tau
  rw [gain_pos hi]
  refine stable_of _ _ _ _ _ hl hr ht hp hi ?_
  rw [div_mul_eq_mul_div, div_lt_iff₀ (by positivity)]
  apply mul_lt_mul_of_pos_left _ hp
  have h2 : 1 < a ^ 2 := by nlinarith
  nlinarith

/-- C85.  The tuned speed loop is stable with the time constant of the torque loop as lag. -/
theorem c85_speed_stable {m : ℕ} (j tau a tn : ℝ) (idx : Fin m) (hj : 0 < j) (ht : 0 < tn) (ha : 1 < a) (r : ℝ) (hr : 0 ≤ r) :
    let b := Base.tuneSpeed j tau a tn idx
    Stable (b.pGain 0) (b.iGain 0) j r tn := by
  intro b
  have ha0 : 0 < a := by linarith
  have hp : 0 < j / (a * tn) := by positivity
  have hi : 0 < j / (a * tn) / (a * tn) := by positivity
  show Stable (j / (a * tn)) (max (j / (a * tn) / (a * tn)) 0) j r tn
  rw [gain_pos hi]
  refine stable_of _ _ _ _ _ hj hr ht hp hi ?_
  rw [div_mul_eq_mul_div, div_lt_iff₀ (by positivity)]
  apply mul_lt_mul_of_pos_left _ hp
  nlinarith

/-- C85 is violated with the design parameter 1, which `make` accepts: without resistance the current loop keeps
oscillating. -/
theorem c85_one_violated {n m : ℕ} (kind : Kind) (l : Fin n → ℝ) (tau : ℝ) (idx : Fin n → Fin m) (j : Fin n) (hl : 0 < l j)
    (ht : 0 < tau) :
    let b := Base.tuneCurrent kind l tau 1 idx
    ¬ Stable (b.pGain j) (b.iGain j) (l j) 0 b.tau := by
  intro b h
  have hi : 0 < l j / (tau * 1) / (tau * 1 ^ 2) := by positivity
  have hI : ((Complex.I : ℂ)) ^ 2 = -1 := Complex.I_sq
  have htc : (tau : ℂ) ≠ 0 := by exact_mod_cast ht.ne'
  have hs := h (Complex.I / tau) (by
    show closedLoop (l j / (tau * 1)) (max (l j / (tau * 1) / (tau * 1 ^ 2)) 0) (l j) 0 tau (Complex.I / tau) = 0
    rw [gain_pos hi, closedLoop]
    push_cast
    field_simp
    linear_combination ((l j : ℂ)) * (1 + Complex.I) * hI)
  have : (Complex.I / (tau : ℂ)).re = 0 := by simp
  linarith

theorem openLoop_normSq (p i l t w : ℝ) (hw : w ≠ 0) :
    Complex.normSq (openLoop p i l t w) = (p ^ 2 + (i / w) ^ 2) / ((l * w) ^ 2 * (1 + (t * w) ^ 2)) := by
  have e : openLoop p i l t w = ((p : ℂ) + ((-(i / w) : ℝ) : ℂ) * Complex.I)
      / ((((l * w : ℝ) : ℂ) * Complex.I) * (((1 : ℝ) : ℂ) + ((t * w : ℝ) : ℂ) * Complex.I)) := by
    rw [openLoop]
    have hwc : (w : ℂ) ≠ 0 := by exact_mod_cast hw
    congr 1
    · push_cast
      field_simp
      linear_combination (i : ℂ) * Complex.I_sq
    · push_cast
      ring
  rw [e, map_div₀, map_mul, map_mul, Complex.normSq_add_mul_I, Complex.normSq_add_mul_I, Complex.normSq_I,
    Complex.normSq_ofReal]
  congr 1
  · ring
  · ring

/-- C85.  The current controller is tuned to the symmetrical optimum. -/
theorem c85_current_optimum {n m : ℕ} (kind : Kind) (l : Fin n → ℝ) (tau a : ℝ) (idx : Fin n → Fin m) (j : Fin n) (hl : 0 < l j)
    (ht : 0 < tau) (ha : 0 < a) :
    let b := Base.tuneCurrent kind l tau a idx
    SymmetricalOptimum (b.pGain j) (b.iGain j) (l j) b.tau := by
  intro b w hw h
  have hi : 0 < l j / (tau * a) / (tau * a ^ 2) := by positivity
  have hb : b.iGain j = l j / (tau * a) / (tau * a ^ 2) := gain_pos hi
  have hp : b.pGain j = l j / (tau * a) := rfl
  have htau : b.tau = tau := rfl
  rw [hb, hp, htau] at h
  rw [openLoop_normSq _ _ _ _ _ hw.ne', hb, hp, htau]
  have e : w ^ 2 = 1 / (a * tau) ^ 2 := by
    rw [h]
    field_simp
  simp only [div_pow, mul_pow, e]
  field_simp

/-- C85 is violated by the speed controller: its amplification at the mean frequency is `1 / sqrt a`, so it is not tuned to
the symmetrical optimum, except for the design parameter 1 (the integral gain lacks a factor `1 / a`). -/
theorem c85_speed_violated {m : ℕ} (j tau a tn : ℝ) (idx : Fin m) (hj : 0 < j) (ht : 0 < tn) (ha : 0 < a) (ha1 : a ≠ 1) :
    let b := Base.tuneSpeed j tau a tn idx
    ¬ SymmetricalOptimum (b.pGain 0) (b.iGain 0) j tn := by
  intro b h
  have hi : 0 < j / (a * tn) / (a * tn) := by positivity
  have hb : b.iGain 0 = j / (a * tn) / (a * tn) := gain_pos hi
  have hp : b.pGain 0 = j / (a * tn) := rfl
  have hw : (0 : ℝ) < √(1 / (a * tn ^ 2)) := Real.sqrt_pos.mpr (by positivity)
  have hw2 : √(1 / (a * tn ^ 2)) ^ 2 = 1 / (a * tn ^ 2) := Real.sq_sqrt (by positivity)
  have := h √(1 / (a * tn ^ 2)) hw (by
    rw [hw2, hb, hp]
    field_simp)
  rw [openLoop_normSq _ _ _ _ _ hw.ne', hb, hp] at this
  simp only [div_pow, mul_pow, hw2] at this
  field_simp at this
  apply ha1
  have h2 : (a - 1) * (a + 1) = 0 := by nlinarith
  rcases mul_eq_zero.mp h2 with h2 | h2
  · linarith
  · linarith

/-- C85 is violated by the current controller of the squirrel cage motor: the "inductance" it is tuned with is the time constant
of the rotor, so the amplification is wrong by the ratio to the inductance `l` of the stator circuit. -/
theorem c85_scim_violated {m : ℕ} (mp : Motor.ImParams ℝ) (kind : Kind) (tau a l : ℝ) (idx : Fin 2 → Fin m) (k : Fin 2)
    (hl : 0 < l) (ht : 0 < tau) (ha : 0 < a) (hx : 0 < lReaderScim mp) (h : lReaderScim mp ≠ l) :
    let b := Base.tuneCurrent kind (fun _ => lReaderScim mp) tau a idx
    ¬ SymmetricalOptimum (b.pGain k) (b.iGain k) l b.tau := by
  intro b hs
  set x := lReaderScim mp with hxx
  have hi : 0 < x / (tau * a) / (tau * a ^ 2) := by positivity
  have hb : b.iGain k = x / (tau * a) / (tau * a ^ 2) := gain_pos hi
  have hp : b.pGain k = x / (tau * a) := rfl
  have htau : b.tau = tau := rfl
  have hw : 0 < 1 / (a * tau) := by positivity
  have := hs (1 / (a * tau)) hw (by
    rw [hb, hp, htau]
    field_simp)
  rw [openLoop_normSq _ _ _ _ _ hw.ne', hb, hp, htau] at this
  have e : x ^ 2 = l ^ 2 := by
    field_simp at this
    nlinarith
  exact h ((sq_eq_sq₀ hx.le hl.le).mp e)

/-- a squirrel cage motor with `l_r / r_r = 2` and a stator inductance of 1 -/
example : lReaderScim (⟨1, 1, 0, 0, 1, 1 / 2⟩ : Motor.ImParams ℝ) = 2 := by norm_num [lReaderScim]

end GEM.Props
