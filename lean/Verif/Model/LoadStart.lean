import Verif.Model.Sharing

/-!
# Boundaries of initial speeds

`MechanicalLoad.initialize` (mechanical_load.py:100-127).  `nominal_state` is an array, as all physical systems pass it
(physical_systems.py: `nominal_state=self.nominal_state` in every `reset`).
-/

namespace GEM.Sharing

open GEM.Utils GEM.Init

variable {K : Type} [Field K] [LinearOrder K]

/-- Nominal values as upper boundaries, these times the lower ends of the state space as lower boundaries, both clipped to the interval of the user
(mechanical_load.py:121-127). -/
def loadBounds (nominal low : List K) (positions : List (String × ℕ)) (interval : Option (List (K × K))) (keys : List String) :
    Except Err (List K × List K) := do
  let idx ← keys.mapM (fun k => match lookup positions k with | some i => .ok i | none => .error Err.key)
  let upper ← idx.mapM (fun i => match nominal[i]? with | some x => .ok x | none => .error Err.index)
  let lows ← idx.mapM (fun i => match low[i]? with | some x => .ok x | none => .error Err.index)
  let lower ← bzip (· * ·) upper lows
  clipBounds interval lower upper

end GEM.Sharing
