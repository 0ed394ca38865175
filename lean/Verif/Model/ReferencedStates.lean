import Verif.Model.Basic
import Mathlib.Data.List.Basic

/-!
# Referenced states as the classic controllers see them

`Controller.reference_states` (examples/classic_controllers/classic_controllers.py:117-133) and `reference_names` of reference generators.
-/

namespace GEM.ReferencedStates

/-- Reference generators by what they refer to: sub-episoded and constant ones have one state (subepisoded_reference_generator.py:39,
const_reference_generator.py:22), the `ZeroReferenceGenerator` has none, the others consist of sub generators. -/
inductive Generator
  | single (state : String)
  | zero
  | multiple (subs : List Generator)
  | switched (subs : List Generator)

mutual
/-- `reference_names` (subepisoded_reference_generator.py:43, zero_reference_generator.py:13, multiple_reference_generator.py:40-42,
switched_reference_generator.py:27-31).  Simplification: that of a `ConstReferenceGenerator`
is a string, not a list (C76), so that here switched generators may mix constant and other ones, which the code rejects. -/
def names : Generator → List String
  | .single s => [s]
  | .zero => []
  | .multiple l => namesAll l
  | .switched l => namesFirst l
def namesAll : List Generator → List String
  | [] => []
  | g :: l => names g ++ namesAll l
def namesFirst : List Generator → List String
  | [] => []
  | g :: _ => names g
end

mutual
/-- The constructors accept it: the sub generators of a switched generator have equal names, and there is one (switched_reference_generator.py:26-30). -/
def Accepted : Generator → Prop
  | .single _ => True
  | .zero => True
  | .multiple l => AcceptedAll l
  | .switched l => l ≠ [] ∧ AcceptedAll l ∧ EqualNames (namesFirst l) l
def AcceptedAll : List Generator → Prop
  | [] => True
  | g :: l => Accepted g ∧ AcceptedAll l
def EqualNames (n : List String) : List Generator → Prop
  | [] => True
  | g :: l => names g = n ∧ EqualNames n l
end

mutual
/-- `set_modules` accepts it: no state is referenced by two sub generators of a multiple generator (multiple_reference_generator.py:49-56), those of a
switched one reference the same states (switched_reference_generator.py:45-62).  Simplification: `referenced_states` is the set of the entries of `names` (also
for constant generators: const_reference_generator.py:29), all of which are states of the system. -/
def Attached : Generator → Prop
  | .single _ => True
  | .zero => True
  | .multiple l => AttachedAll l ∧ ∀ s, (l.filter fun g => s ∈ names g).length < 2
  | .switched l => AttachedAll l ∧ SameStates (namesFirst l) l
def AttachedAll : List Generator → Prop
  | [] => True
  | g :: l => Attached g ∧ AttachedAll l
def SameStates (n : List String) : List Generator → Prop
  | [] => True
  | g :: l => (∀ s, s ∈ names g ↔ s ∈ n) ∧ SameStates n l
end

/-- `rg._reference_state` -/
def ownState : Generator → Except Err String
  | .single s => .ok s
  | _ => .error .attribute

/-- `rg._sub_generators[0]._reference_state` -/
def firstState : List Generator → Except Err String
  | [] => .error .index
  | g :: _ => ownState g

/-- lines 123-126 -/
def subState : Generator → Except Err String
  | .switched l => firstState l
  | g => ownState g

/-- lines 122-126 -/
def subStates : List Generator → Except Err (List String)
  | [] => .ok []
  | g :: l =>
    match subState g with
    | .error e => .error e
    | .ok s => (subStates l).map (s :: ·)

/-- `reference_states` (classic_controllers.py:117-133) -/
def classicStates : Generator → Except Err (List String)
  | .multiple l => subStates l
  | .switched l => (firstState l).map ([·])
  | g => (ownState g).map ([·])

end GEM.ReferencedStates
