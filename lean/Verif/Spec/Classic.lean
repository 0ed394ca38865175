import Verif.Model.ClassicFoc

/-!
# Vocabulary for the statements about the classic controllers
-/

set_option linter.unusedSectionVars false

namespace GEM.Classic

open GEM

variable {K : Type} [Field K] [LinearOrder K] [IsStrictOrderedRing K]

/-- An element of `Box(low, high)`: one entry for every pair of bounds, between them. -/
def InBox (box : List (K × K)) (a : List K) : Prop := List.Forall₂ (fun b x => b.1 ≤ x ∧ x ≤ b.2) box a

/-- The same for arrays that may have `nan` as an entry; `nan` is between no bounds. -/
def InBoxNum (box : List (K × K)) (a : List (Num K)) : Prop :=
  List.Forall₂ (fun b x => ∃ y, x = some y ∧ b.1 ≤ y ∧ y ≤ b.2) box a

/-- An element of `Discrete(n)`. -/
def InDiscrete (n : ℕ) (a : ℤ) : Prop := 0 ≤ a ∧ a < n

/-- Bounds, nominal value and limit of a voltage as an environment has them: zero volt can be chosen, the nominal value is not above the
limit. -/
structure Voltage (low high nominal limit : K) : Prop where
  under : low ≤ 0
  upper : 0 ≤ high
  nonneg : 0 ≤ nominal
  pos : 0 < limit
  below : nominal ≤ limit

end GEM.Classic
