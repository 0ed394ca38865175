import Verif.Model.Systems

/-!
# The transformations of three-phase systems to and from stator coordinates

`ThreePhaseMotorSystem` (physical_systems.py:321-415); those between phases and rotor coordinates are in Model/Systems.lean.
-/

namespace GEM.Sys

open Real GEM.Motor

noncomputable section

/-- `abc_to_alphabeta_space` (physical_systems.py:326-337). -/
def abcToAlphabeta (v : Fin 3 → ℝ) : Fin 2 → ℝ := t23 v
/-- `alphabeta_to_abc_space` (physical_systems.py:339-349). -/
def alphabetaToAbc (v : Fin 2 → ℝ) : Fin 3 → ℝ := t32 v
/-- `alphabeta_to_dq_space` (physical_systems.py:384-399); `normed` is `normed_epsilon`.  The angle is a number: arrays would be scaled in
place. -/
def alphabetaToDq (v : Fin 2 → ℝ) (eps : ℝ) (normed : Bool) : Fin 2 → ℝ := qInv v (if normed then eps * π else eps)
/-- `dq_to_alphabeta_space` (physical_systems.py:401-415). -/
def dqToAlphabeta (v : Fin 2 → ℝ) (eps : ℝ) (normed : Bool) : Fin 2 → ℝ := q v (if normed then eps * π else eps)

end

end GEM.Sys
