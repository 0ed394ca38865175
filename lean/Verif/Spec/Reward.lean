import Mathlib.Algebra.BigOperators.Group.Finset.Basic
import Verif.Model.Reward

/-!
# Vocabulary for the statements about the reward function
-/

namespace GEM.Reward

open GEM GEM.Utils

/-- All numbers of an argument are at least 0. -/
def Nonneg {N : Type} : Input N ℝ → Prop
  | .dict d => ∀ p ∈ d, 0 ≤ p.2
  | .ndarray a => ∀ x ∈ a, 0 ≤ x
  | .list a => ∀ x ∈ a, 0 ≤ x
  | .scalar x => 0 ≤ x
  | .other => False

/-- All numbers of an argument, and what is filled in for states that are not mentioned, are greater than 0: powers given
as a dictionary are 0 for the other states. -/
def Positive {N : Type} : Input N ℝ → Prop
  | .dict _ => False
  | .ndarray a => ∀ x ∈ a, 0 < x
  | .list a => ∀ x ∈ a, 0 < x
  | .scalar x => 0 < x
  | .other => False

/-- Entry `i` of an array. -/
def entry (a : List ℝ) (i : ℕ) : ℝ := a.getD i 0

/-- The arrays of the modules have one entry per state, and every state has a range of values. -/
structure Sound {N : Type} (m : Modules N) : Prop where
  low : m.low.length = m.names.length
  high : m.high.length = m.names.length
  referenced : m.referenced.length = m.names.length
  range : ∀ i < m.names.length, entry m.low i < entry m.high i

/-- A state (or reference) inside the state space. -/
def InSpace {N : Type} (m : Modules N) (s : List ℝ) : Prop :=
  s.length = m.names.length ∧ ∀ i < m.names.length, entry m.low i ≤ entry s i ∧ entry s i ≤ entry m.high i

/-- The error of state `i`, relative to the length of its range. -/
noncomputable def relError {N : Type} (m : Modules N) (s r : List ℝ) (i : ℕ) : ℝ :=
  |entry s i - entry r i| / (entry m.high i - entry m.low i)

end GEM.Reward
