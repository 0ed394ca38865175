import Mathlib.Analysis.Calculus.Deriv.Basic
import Mathlib.Data.Matrix.Mul
import Mathlib.Data.Real.Basic

/-!
# Specifications for motors, independent of the model
-/

namespace GEM.Spec

/-- `J` is the matrix of partial derivatives of `f` at `s`. -/
def IsPartials {m n : ℕ} (f : (Fin n → ℝ) → Fin m → ℝ) (J : Fin m → Fin n → ℝ) (s : Fin n → ℝ) : Prop :=
  ∀ i j, HasDerivAt (fun x => f (Function.update s j x) i) (J i j) (s j)

/-- The three blocks returned by `electrical_jacobian`: derivatives of the ODE over the states and over the speed, and
of the torque over the states. -/
structure IsMotorJacobian {n : ℕ} (ode : (Fin n → ℝ) → ℝ → Fin n → ℝ) (torque : (Fin n → ℝ) → ℝ)
    (dx : Fin n → Fin n → ℝ) (dw dT : Fin n → ℝ) (s : Fin n → ℝ) (w : ℝ) : Prop where
  states : IsPartials (fun s => ode s w) dx s
  speed : ∀ i, HasDerivAt (fun w => ode s w i) (dw i) w
  torque : ∀ j, HasDerivAt (fun x => torque (Function.update s j x)) (dT j) (s j)

/-- `x` is a solution of the motor equation under input `u` and speed `w`. -/
def IsSolution {n : ℕ} {U : Type*} (ode : (Fin n → ℝ) → U → ℝ → Fin n → ℝ) (x : ℝ → Fin n → ℝ) (u : ℝ → U)
    (w : ℝ → ℝ) : Prop :=
  ∀ t i, HasDerivAt (fun t => x t i) (ode (x t) (u t) (w t) i) t

/-- Power balance: the field energy `W` of the machine changes by input power minus copper losses minus shaft power. -/
def PowerBalance {n : ℕ} {U : Type*} (ode : (Fin n → ℝ) → U → ℝ → Fin n → ℝ) (torque W loss : (Fin n → ℝ) → ℝ)
    (input : (Fin n → ℝ) → U → ℝ) : Prop :=
  ∀ (x : ℝ → Fin n → ℝ) (u : ℝ → U) (w : ℝ → ℝ), IsSolution ode x u w →
    ∀ t, HasDerivAt (fun t => W (x t)) (input (x t) (u t) - loss (x t) - torque (x t) * w t) t

end GEM.Spec
