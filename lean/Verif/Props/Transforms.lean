import Verif.Model.Transforms
import Verif.Props.Motors
import Verif.Props.Systems

/-!
# C32: transformations of the physical systems with the observed angle
-/

namespace GEM.Props

open Real GEM.Motor GEM.Sys

theorem q_wrap (v : Fin 2 → ℝ) (e : ℝ) : q v (wrap e) = q v e ∧ qInv v (wrap e) = qInv v e := by
  obtain ⟨n, h⟩ := c33_turns e
  rw [h]
  have hc : cos (e + n * (2 * π)) = cos e := Real.cos_add_int_mul_two_pi e n
  have hs : sin (e + n * (2 * π)) = sin e := Real.sin_add_int_mul_two_pi e n
  constructor <;> simp only [q, qInv, cos_neg, sin_neg, hc, hs]

/-- C32: with `normed_epsilon` the transformations take the angle that an environment observes, the wrapped angle over its limit `π`, and do
the same as without it for the angle of the rotor. -/
theorem c32_normed (e : ℝ) :
    (∀ v, abcToDqNormed v (wrap e / π) = abcToDq v e) ∧ (∀ v, dqToAbcNormed v (wrap e / π) = dqToAbc v e) ∧
      (∀ v, alphabetaToDq v (wrap e / π) true = alphabetaToDq v e false) ∧
      ∀ v, dqToAlphabeta v (wrap e / π) true = dqToAlphabeta v e false := by
  have h : wrap e / π * π = wrap e := div_mul_cancel₀ _ pi_ne_zero
  refine ⟨fun v => ?_, fun v => ?_, fun v => ?_, fun v => ?_⟩
  · rw [abcToDqNormed, h, abcToDq, (q_wrap _ e).2, abcToDq]
  · rw [dqToAbcNormed, h, dqToAbc, (q_wrap _ e).1, dqToAbc]
  · simp only [alphabetaToDq, if_true, h, (q_wrap _ e).2, Bool.false_eq_true, if_false]
  · simp only [dqToAlphabeta, if_true, h, (q_wrap _ e).1, Bool.false_eq_true, if_false]

/-- C32: the six transformations fit together: going through stator coordinates is going directly, and every way back undoes the way there. -/
theorem c32_spaces (eps : ℝ) (b : Bool) :
    (∀ v, alphabetaToDq (abcToAlphabeta v) eps b = if b then abcToDqNormed v eps else abcToDq v eps) ∧
      (∀ v, alphabetaToAbc (dqToAlphabeta v eps b) = if b then dqToAbcNormed v eps else dqToAbc v eps) ∧
      (∀ v, alphabetaToDq (dqToAlphabeta v eps b) eps b = v) ∧ (∀ v, dqToAlphabeta (alphabetaToDq v eps b) eps b = v) ∧
      (∀ v, abcToAlphabeta (alphabetaToAbc v) = v) ∧ ∀ v, v 0 + v 1 + v 2 = 0 → alphabetaToAbc (abcToAlphabeta v) = v := by
  refine ⟨fun v => ?_, fun v => ?_, fun v => (c32_q_inv v _).1, fun v => (c32_q_inv v _).2, c32_t23_t32, fun v h => (c32_t32_t23 v).2 h⟩
  · cases b <;> rfl
  · cases b <;> rfl

/-- The rotor at a third of a turn behind several: the observed angle is -2/3. -/
example : wrap (10 / 3 * π) / π = -(2 / 3) := by
  rw [c33_unique (10 / 3 * π) (-(2 / 3) * π) (by linarith [pi_pos]) (by linarith [pi_pos]) (-2) (by push_cast; ring)]
  exact mul_div_cancel_right₀ _ pi_ne_zero

end GEM.Props
