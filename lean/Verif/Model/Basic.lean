import Mathlib.Tactic.TypeStar

/-!
# Shared vocabulary of the model

Python exceptions are values.  A method that mutates its object and may raise is modelled as a function returning
the object after the call together with the result (`Call`), so that the state a raising call leaves behind is visible.
-/

namespace GEM

/-- The Python exceptions that occur in the modelled code. -/
inductive Err where
  | assertion      -- `assert` failed
  | index          -- IndexError
  | type           -- TypeError
  | value          -- ValueError (e.g. `list.index`, numpy shape mismatch)
  | key            -- KeyError
  | attribute      -- AttributeError
  | zeroDiv        -- ZeroDivisionError
  | notImplemented -- NotImplementedError
  | generic        -- bare `Exception`
deriving DecidableEq, Repr

/-- Result of a method call on an object of type `σ`: object afterwards, and return value or exception. -/
abbrev Call (σ α : Type*) := σ × Except Err α

/-- Sequencing of calls: an exception ends the enclosing method. -/
def Call.bind {σ α β : Type*} (r : Call σ α) (f : σ → α → Call σ β) : Call σ β :=
  match r.2 with
  | .ok a => f r.1 a
  | .error e => (r.1, .error e)

/-- Python's builtin `min(max(x, lo), hi)` resp. `np.clip(x, lo, hi) = minimum(hi, maximum(x, lo))`. -/
def clip {K : Type*} [Min K] [Max K] (x lo hi : K) : K := min (max x lo) hi

end GEM
