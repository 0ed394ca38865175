import Verif.Model.Env
import Verif.Model.References

/-!
# `StateObserver`  (`src/gym_electric_motor/observers/observer.py`)

and the attribute `current_state` of the environment, which it reads.
-/

namespace GEM.Observe

open GEM GEM.Core GEM.Refs

/-- What happens to an environment: a reset or a step, each with the (full) state vector the physical system returns. -/
inductive Event (α : Type) where
  | reset (x : List α)
  | step (x : List α)

/-- `env.current_state` after some events: a class attribute, None at first (core.py 113), written by `step` only (core.py 345;
`reset`, core.py 302–321, leaves it). -/
def currentState {α : Type} (es : List (Event α)) : Option (List α) :=
  es.foldl (fun c e => match e with | .reset _ => c | .step x => some x) none

/-- `StateObserver.fuse_state_and_next_reference` (observer.py 33–38): `env.state_names` is a new list with the names of the
states in the filter; the names of the references, with a suffix, are appended. -/
def fuse (names : List String) (idx : List ℕ) (refs : Names) : List String :=
  take names idx ++ refs.iter.map (· ++ "_ref")

/-- `StateObserver.pull` (observer.py 40–52): the name is looked up in the fused list, the value is read from the full state
vector. `fused`: the list made in the constructor. -/
def pull {α : Type} (fused : List String) (current : Option (List α)) (state : String) : Except Err (String × α) :=
  if state ∈ fused then
    match current with
    | none => .error .type
    | some x =>
      match x[fused.idxOf state]? with
      | some v => .ok (state, v)
      | none => .error .index
  else .error .value

end GEM.Observe
