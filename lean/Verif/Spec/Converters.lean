import Mathlib.Algebra.Order.Field.Basic

/-!
# Specification vocabulary for converters (independent of the model)
-/

namespace GEM.Spec

variable {K : Type*} [Field K] [LinearOrder K]

/-- `us` is an element of the box with bounds `lo`, `hi` (same length, componentwise). -/
def InBox (lo hi us : List K) : Prop := List.Forall₂ (· ≤ ·) lo us ∧ List.Forall₂ (· ≤ ·) us hi

/-- What a hardware monitor of a half bridge remembers. -/
inductive Bridge (K : Type*) where
  /-- nothing has conducted yet -/
  | idle
  /-- switch `s` (1 upper, 2 lower) is closed -/
  | closed (s : ℕ)
  /-- both open since time `t0`, `s` was the last closed switch -/
  | opened (s : ℕ) (t0 : K)

/-- The monitor fires (`none`) when a switch closes while the other one is closed, or less than the interlocking
time `il` after the other one opened. Observations are (time, switch position), position 0 = both open. -/
def Bridge.observe (il : K) : Bridge K → K × ℕ → Option (Bridge K)
  | .idle, (_, 0) => some .idle
  | .idle, (_, s) => some (.closed s)
  | .closed s, (t, 0) => some (.opened s t)
  | .closed s, (_, s') => if s' = s then some (.closed s) else none
  | .opened s t0, (_, 0) => some (.opened s t0)
  | .opened s t0, (t, s') => if s' = s ∨ il ≤ t - t0 then some (.closed s') else none

/-- No shoot-through in a chronological list of observations. -/
def NoShootThrough (il : K) (obs : List (K × ℕ)) : Prop :=
  (obs.foldlM (Bridge.observe il) Bridge.idle).isSome

/-- The switching times of a control interval `(t, t + tau]`: strictly increasing, inside, ending at its end. -/
def PartitionsInterval (t tau : K) (ts : List K) : Prop :=
  ts.Pairwise (· < ·) ∧ (∀ x ∈ ts, t < x ∧ x ≤ t + tau) ∧ ts.getLast? = some (t + tau)

/-- Scalar product of two lists of equal length. -/
def dot : List K → List K → K
  | x :: xs, y :: ys => x * y + dot xs ys
  | _, _ => 0

end GEM.Spec
