import Mathlib.Algebra.Field.Defs
import Verif.Model.Basic

/-!
# `get_state_space` of the DC motors (`physical_systems/electric_motors`)

The first element of the result: a dictionary of the lower ends of the normalised states.  `cur`, `volt` are `currents.low` and
`voltages.low` of the converter.  The upper ends are all 1.  The loads return the range of the speed they were given
(mechanical_load.py 228–236), so that `_build_state_space` (physical_systems.py 305–318) keeps the value of the motor.
-/

namespace GEM.Space

variable {K : Type} [Field K] [DecidableEq K]

/-- `-1 if low == -1 else 0` -/
def signed (low : K) : K := if low = -1 then -1 else 0

/-- `DcSeriesMotor.get_state_space` (dc_series_motor.py 100–114) -/
def series (cur volt : ℕ → K) : List (String × K) :=
  [("omega", 0), ("torque", 0), ("i", signed (cur 0)), ("u", signed (volt 0))]

/-- `DcShuntMotor.get_state_space` (dc_shunt_motor.py 94–120) -/
def shunt (cur volt : ℕ → K) : List (String × K) :=
  [("omega", 0), ("torque", signed (cur 0)), ("i_a", signed (cur 0)), ("i_e", signed (cur 0)), ("u", signed (volt 0))]

/-- `DcPermanentlyExcitedMotor.get_state_space` (dc_permanently_excited_motor.py 106–120) -/
def permEx (cur volt : ℕ → K) : List (String × K) :=
  [("omega", signed (volt 0)), ("torque", signed (cur 0)), ("i", signed (cur 0)), ("u", signed (volt 0))]

/-- `DcMotor.get_state_space` (dc_motor.py 129–151) of the externally excited motor -/
def extEx (cur volt : ℕ → K) : List (String × K) :=
  [("omega", if volt 0 = -1 ∨ volt 1 = -1 then -1 else 0), ("torque", if cur 0 = -1 ∨ cur 1 = -1 then -1 else 0),
   ("i_a", signed (cur 0)), ("i_e", signed (cur 1)), ("u_a", signed (volt 0)), ("u_e", signed (volt 1))]

end GEM.Space
