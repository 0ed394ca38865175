import Mathlib.Algebra.Module.Defs
import Mathlib.Algebra.Order.Field.Basic

/-!
# Specifications for solvers, supplies and loads, independent of the model
-/

namespace GEM.Spec

section
variable {K : Type*} [Field K] {Y : Type*} [AddCommGroup Y] [Module K Y]

/-- The textbook explicit Euler iteration: `n` steps of width `h` from `(t, y)`. -/
def eulerIter (f : K → Y → Y) (h : K) : ℕ → K → Y → Y
  | 0, _, y => y
  | n + 1, t, y => eulerIter f h n (t + h) (y + h • f t y)
end

section
variable {K : Type*} [Field K] [LinearOrder K]

/-- Coulomb + viscous + quadratic friction with the Coulomb part regularised to slope `k` around standstill. -/
def friction (a b c k omega : K) : K := c * (omega * |omega|) + b * omega + max (-a) (min a (k * omega))

/-- The load currents and sampling times an RC supply is specified for: from time `t` on, every increment lies in
`[0, r*c]` and every current in `[0, u0/r]`. -/
def rcAdmissible (u0 r c : K) : K → List (K × K) → Prop
  | _, [] => True
  | t, (t', i) :: l => (0 ≤ t' - t ∧ t' - t ≤ r * c) ∧ (0 ≤ i ∧ i ≤ u0 / r) ∧ rcAdmissible u0 r c t' l
end

end GEM.Spec
