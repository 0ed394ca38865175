import Mathlib.Algebra.Order.Field.Basic
import Verif.Model.Basic

/-!
# `src/gym_electric_motor/utils.py` and `src/gym_electric_motor/constraints.py`, `ConstraintMonitor` of `core.py`

State names are values of an arbitrary type `N`; `lower : N → N` is Python's `str.lower`.
A Python dict is the list of its items in insertion order.
-/

namespace GEM.Utils

variable {N V K : Type*} [DecidableEq N]

/-- `d[k]`, `none` for a `KeyError`. Later items win, so that it is also correct for the item list handed to `dict(...)`. -/
def lookup (d : List (N × V)) (k : N) : Option V := (d.reverse.find? (fun p => p.1 = k)).map Prod.snd

/-- `state_dict_to_state_array` (utils.py 19–37), array after the call or AssertionError.
The array is assumed to have the length of `state_names` (it is created that way by the callers). -/
def stateDictToStateArray (lower : N → N) (d : List (N × V)) (arr : List V) (names : List N) : Except Err (List V) :=
  let d' := d.map (fun p => (lower p.1, p.2))
  if ∀ p ∈ d', p.1 ∈ names then
    .ok (List.zipWith (fun n x => match lookup d' n with | some v => v | none => x) names arr)
  else .error .assertion

/-- The admissible kinds of input of `set_state_array`. -/
inductive Input (N K : Type*) where
  | dict (d : List (N × K))
  | ndarray (a : List K)
  | list (a : List K)
  | scalar (x : K)
  | other

/-- `set_state_array` (utils.py 40–70). For an ndarray the same object is returned; only its content is modelled. -/
def setStateArray [Zero K] (lower : N → N) (names : List N) : Input N K → Except Err (List K)
  | .dict d => stateDictToStateArray lower d (names.map (fun _ => 0)) names
  | .ndarray a => if a.length = names.length then .ok a else .error .assertion
  | .list a => if a.length = names.length then .ok a else .error .assertion
  | .scalar x => .ok (names.map (fun _ => x))
  | .other => .error .generic

/-- `d[k] = v`: keeps the position of an existing key, appends a new one. -/
def dictSet (d : List (N × V)) (k : N) (v : V) : List (N × V) :=
  if k ∈ d.map Prod.fst then d.map (fun p => if p.1 = k then (k, v) else p) else d ++ [(k, v)]

/-- `d.update(u)`. -/
def dictUpdate (d u : List (N × V)) : List (N × V) := u.foldl (fun d p => dictSet d p.1 p.2) d

/-- Dictionaries live in a store; a reference is a position in it. -/
abbrev Store (N V : Type*) := List (List (N × V))

/-- `update_parameter_dict` (utils.py 73–94): references in, reference out. Dangling references do not occur in Python
and give `IndexError` here. -/
def updateParameterDict (st : Store N V) (src upd : ℕ) (copy : Bool) : Except Err (Store N V × ℕ) :=
  match st[src]?, st[upd]? with
  | some d, some u =>
    if ∀ p ∈ u, p.1 ∈ d.map Prod.fst then
      if copy then .ok (st ++ [dictUpdate d u], st.length)
      else .ok (st.set src (dictUpdate d u), src)
    else .error .key
  | _, _ => .error .index

end GEM.Utils

namespace GEM.Constr

open GEM.Utils

variable {N K : Type*} [DecidableEq N] [Field K] [LinearOrder K]

/-- `LimitConstraint.set_modules` (constraints.py 60–68): the boolean mask of the observed states.
`observed = None` fails in the membership test before it is replaced by `[]`. -/
def limitMask (lower : N → N) (allStates : N) (names : List N) (observed : Option (List N)) : Except Err (List Bool) :=
  match observed with
  | none => .error .type
  | some obs =>
    let o := if allStates ∈ obs then names else obs
    match setStateArray lower names (.dict (o.map (fun n => (n, (1 : K))))) with
    | .ok a => .ok (a.map (fun x => decide (x ≠ 0)))
    | .error e => .error e

/-- `LimitConstraint.__call__` (constraints.py 55–58). -/
def limitCall (mask : List Bool) (state : List K) : Except Err K :=
  if state.length = mask.length then
    let observed := ((state.zip mask).filter (fun p => p.2)).map Prod.fst
    .ok (if observed.any (fun x => decide (1 < |x|)) then 1 else 0)
  else .error .index

/-- `SquaredConstraint.set_modules` (constraints.py 91–94): positions, their limits, and whether the state is taken as
normalised. `high`, `limits`: the full vectors of the physical system. -/
def squaredModules (names : List N) (high limits : List K) (states : List N) : Except Err (List ℕ × List K × Bool) :=
  if ∀ s ∈ states, s ∈ names then
    let idx := states.map names.idxOf
    let lim := idx.map (fun i => limits.getD i 0)
    .ok (idx, lim, !decide (idx.map (fun i => high.getD i 0) = lim))
  else .error .key

/-- `SquaredConstraint.__call__` (constraints.py 96–98). -/
def squaredCall (m : List ℕ × List K × Bool) (state : List K) : K :=
  let s := m.1.map (fun i => state.getD i 0)
  let s' := if m.2.2 then s else List.zipWith (· / ·) s m.2.1
  if 1 < (s'.map (· ^ 2)).sum then 1 else 0

/-- The two kinds of values a merge function can be handed. -/
inductive PyVal (K : Type*) where
  | num (x : K)
  | list (l : List K)

/-- `1 - v`: a `TypeError` for a list. -/
def oneMinus : PyVal K → Except Err K
  | .num x => .ok (1 - x)
  | .list _ => .error .type

/-- `product_merge(*violation_degrees)` (core.py 811–812). -/
def productMerge (args : List (PyVal K)) : Except Err K :=
  match args.mapM oneMinus with
  | .ok l => .ok (1 - l.prod)
  | .error e => .error e

/-- builtin `max` called with one argument, which must be a non-empty iterable. -/
def maxMerge (args : List (PyVal K)) : Except Err K :=
  match args with
  | [.list (x :: l)] => .ok (l.foldl max x)
  | [.list []] => .error .value
  | [.num _] => .error .type
  | _ => .error .type  -- several arguments do not occur

inductive Merge | max | product
deriving DecidableEq

/-- The constraint monitor (core.py 776–844) on states `S`: constraints are arbitrary functions. User defined merge
functions are not modelled. -/
structure Monitor (S K : Type*) where
  constraints : List (S → K)
  merge : Merge

/-- `check_constraints` (core.py 834–844), with the merge function chosen in `__init__` (core.py 802–817). -/
def Monitor.check {S : Type*} (m : Monitor S K) (s : S) : Except Err K :=
  let violations := m.constraints.map (fun c => c s)
  match m.constraints with
  | [] => .ok 0
  | _ :: _ => match m.merge with
    | .max => maxMerge [.list violations]
    | .product => productMerge [.list violations]

/-- An element of the `constraints` argument of the environment: a state name, a `Constraint` object, or a plain callable.
Constraint objects and callables are given by the degree they return for a state. -/
inductive Arg (N K : Type*) where
  | name (n : N)
  | constr (f : List K → K)
  | callable (f : List K → K)

/-- `[c for c in constraints if isinstance(c, str)]` (core.py 258) -/
def limitArgs (args : List (Arg N K)) : List N :=
  args.filterMap (fun a => match a with | .name n => some n | _ => none)

/-- `[c for c in constraints if isinstance(c, Constraint)]` (core.py 259) -/
def additionalArgs (args : List (Arg N K)) : List (List K → K) :=
  args.filterMap (fun a => match a with | .constr f => some f | _ => none)

/-- The monitor the environment builds from its `constraints` argument (core.py 254–262, 792–800), after `set_modules`. -/
def envMonitor (lower : N → N) (allStates : N) (names : List N) (args : List (Arg N K)) :
    Except Err (Monitor (List K) K) :=
  let limit := limitArgs args
  let additional := additionalArgs args
  if limit = [] then .ok ⟨additional, .max⟩
  else match limitMask (K := K) lower allStates names (some limit) with
    | .error e => .error e
    | .ok mask => .ok ⟨additional ++ [fun s => match limitCall mask s with | .ok v => v | .error _ => 0], .max⟩

end GEM.Constr
