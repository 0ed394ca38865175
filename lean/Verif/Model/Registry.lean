import Verif.Model.Assembly
import Verif.Model.StateSpace
import Verif.Model.Limits

/-!
# The registered environments

`src/gym_electric_motor/__init__.py` (registration), `envs/motors.py` (`Motor`) and the default arguments of the 54 environment classes
under `envs/`.

All 54 classes combine a DC, synchronous or induction system of `Model/Systems.lean` with an ideal voltage supply, a
`WienerProcessReferenceGenerator` or several of them, a `WeightedSumOfErrors` with `reward_weights`, a `ScipyOdeSolver` and a
`MotorDashboard`.  A `LimitConstraint` object among the default constraints counts like the names it was made of.  The classes of the shunt
motor put a `CurrentSumProcessor` around the system and all wrappers of the user (`Model/RegisteredEnv.lean`).  `tools/registry.py` compares
the table with the source.
-/

namespace GEM.Registry

open GEM GEM.Sys GEM.Assembly

/-- `MotorType` (motors.py 4–7) -/
inductive MotorType
  | permExDc | extExDc | seriesDc | shuntDc | eesm | dfim | scim | pmsm | synRm
deriving DecidableEq

/-- `ControlType` (motors.py 51) -/
inductive ControlType
  | speed | torque | current
deriving DecidableEq

/-- `ActionType` (motors.py 56) -/
inductive ActionType
  | continuous | finite
deriving DecidableEq

/-- `_to_env_id` (motors.py 42–49, 61–65): the tag, or the name of the member without tag -/
def MotorType.tag : MotorType → String
  | .permExDc => "PermExDc"
  | .extExDc => "ExtExDc"
  | .seriesDc => "SeriesDc"
  | .shuntDc => "ShuntDc"
  | .eesm => "EESM"
  | .dfim => "DFIM"
  | .scim => "SCIM"
  | .pmsm => "PMSM"
  | .synRm => "SynRM"

/-- motors.py 52–54 -/
def ControlType.tag : ControlType → String
  | .speed => "SC"
  | .torque => "TC"
  | .current => "CC"

/-- motors.py 57; `Finite` has no tag -/
def ActionType.tag : ActionType → String
  | .continuous => "Cont"
  | .finite => "Finite"

/-- `MotorType.….states` (motors.py 8–39) -/
def MotorType.states : MotorType → List String
  | .permExDc => ["omega", "torque", "i", "u"]
  | .extExDc => ["omega", "torque", "i_a", "i_e", "u_a", "u_e"]
  | .seriesDc => ["omega", "torque", "i", "u"]
  | .shuntDc => ["omega", "torque", "i_a", "i_e", "u"]
  | .eesm => ["omega", "torque", "i_sd", "i_sq", "i_a", "i_b", "i_c", "i_e", "u_sd", "u_sq", "u_a", "u_b", "u_c", "u_e"]
  | .dfim => ["omega", "torque", "i_sa", "i_sb", "i_sc", "i_sd", "i_sq", "u_sa", "u_sb", "u_sc", "u_sd", "u_sq",
      "i_ra", "i_rb", "i_rc", "i_rd", "i_rq", "u_ra", "u_rb", "u_rc", "u_rd", "u_rq", "epsilon"]
  | .scim => ["omega", "torque", "i_sa", "i_sb", "i_sc", "i_sd", "i_sq", "u_sa", "u_sb", "u_sc", "u_sd", "u_sq", "epsilon"]
  | .pmsm => ["omega", "torque", "i_sd", "i_sq", "i_a", "i_b", "i_c", "u_sd", "u_sq", "u_a", "u_b", "u_c"]
  | .synRm => ["omega", "torque", "i_sd", "i_sq", "i_a", "i_b", "i_c", "u_sd", "u_sq", "u_a", "u_b", "u_c"]

/-- `Motor` (motors.py 68–72) -/
structure Motor where
  type : MotorType
  control : ControlType
  action : ActionType

/-- `Motor.env_id` (motors.py 74–82) -/
def Motor.envId (m : Motor) : String := m.action.tag ++ "-" ++ m.control.tag ++ "-" ++ m.type.tag ++ "-v0"

/-- `Motor.states` (motors.py 84–85) -/
def Motor.states (m : Motor) : List String := m.type.states

/-- the converters that occur: four quadrants, three phases -/
inductive Bridge
  | four | b6
deriving DecidableEq

/-- default converter: one, or a multi converter -/
inductive ConvArg
  | single (k : Bridge)
  | multi (ks : List Bridge)
deriving DecidableEq

/-- default load with its arguments -/
inductive LoadArg
  | constantSpeed (omega : ℚ)
  | polynomial (parameter : List (String × ℚ))
deriving DecidableEq

/-- a Wiener process: `reference_state`, `sigma_range` (default of the class: (1e-3, 1e-1), wiener_process_reference_generator.py 11),
`limit_margin` -/
structure WienerArg where
  state : String
  sigma : ℚ × ℚ
  margin : Option (ℚ × ℚ)
deriving DecidableEq

/-- default reference generator: a Wiener process, or a `MultipleReferenceGenerator` -/
inductive RefArg
  | one (g : WienerArg)
  | multiple (gs : List WienerArg)
deriving DecidableEq

/-- the Wiener processes -/
def RefArg.list : RefArg → List WienerArg
  | .one g => [g]
  | .multiple gs => gs

/-- Default arguments of an environment class: motor class, finite or continuous converter, load, `u_nominal` of the ideal supply,
`tau`, states of the `LimitConstraint`s and of the `SquaredConstraint`s, reference generator, `reward_weights`, and the currents of the
`CurrentSumProcessor`s that the class appends to the wrappers. -/
structure Defaults where
  motor : MotorType
  action : ActionType
  converter : ConvArg
  load : LoadArg
  supply : ℚ
  tau : ℚ
  limited : List String
  squares : List (List String)
  references : RefArg
  weights : List (String × ℚ)
  currentSums : List (List String) := []
deriving DecidableEq

/-- The calls of `register` (`src/gym_electric_motor/__init__.py` 46–283): id and class of the entry point. -/
def registered : List (String × String) := [
  ("Finite-SC-PermExDc-v0", "FiniteSpeedControlDcPermanentlyExcitedMotorEnv"),
  ("Cont-SC-PermExDc-v0", "ContSpeedControlDcPermanentlyExcitedMotorEnv"),
  ("Finite-TC-PermExDc-v0", "FiniteTorqueControlDcPermanentlyExcitedMotorEnv"),
  ("Cont-TC-PermExDc-v0", "ContTorqueControlDcPermanentlyExcitedMotorEnv"),
  ("Finite-CC-PermExDc-v0", "FiniteCurrentControlDcPermanentlyExcitedMotorEnv"),
  ("Cont-CC-PermExDc-v0", "ContCurrentControlDcPermanentlyExcitedMotorEnv"),
  ("Finite-SC-ExtExDc-v0", "FiniteSpeedControlDcExternallyExcitedMotorEnv"),
  ("Cont-SC-ExtExDc-v0", "ContSpeedControlDcExternallyExcitedMotorEnv"),
  ("Finite-TC-ExtExDc-v0", "FiniteTorqueControlDcExternallyExcitedMotorEnv"),
  ("Cont-TC-ExtExDc-v0", "ContTorqueControlDcExternallyExcitedMotorEnv"),
  ("Finite-CC-ExtExDc-v0", "FiniteCurrentControlDcExternallyExcitedMotorEnv"),
  ("Cont-CC-ExtExDc-v0", "ContCurrentControlDcExternallyExcitedMotorEnv"),
  ("Finite-SC-SeriesDc-v0", "FiniteSpeedControlDcSeriesMotorEnv"),
  ("Cont-SC-SeriesDc-v0", "ContSpeedControlDcSeriesMotorEnv"),
  ("Finite-TC-SeriesDc-v0", "FiniteTorqueControlDcSeriesMotorEnv"),
  ("Cont-TC-SeriesDc-v0", "ContTorqueControlDcSeriesMotorEnv"),
  ("Finite-CC-SeriesDc-v0", "FiniteCurrentControlDcSeriesMotorEnv"),
  ("Cont-CC-SeriesDc-v0", "ContCurrentControlDcSeriesMotorEnv"),
  ("Finite-SC-ShuntDc-v0", "FiniteSpeedControlDcShuntMotorEnv"),
  ("Cont-SC-ShuntDc-v0", "ContSpeedControlDcShuntMotorEnv"),
  ("Finite-TC-ShuntDc-v0", "FiniteTorqueControlDcShuntMotorEnv"),
  ("Cont-TC-ShuntDc-v0", "ContTorqueControlDcShuntMotorEnv"),
  ("Finite-CC-ShuntDc-v0", "FiniteCurrentControlDcShuntMotorEnv"),
  ("Cont-CC-ShuntDc-v0", "ContCurrentControlDcShuntMotorEnv"),
  ("Finite-SC-PMSM-v0", "FiniteSpeedControlPermanentMagnetSynchronousMotorEnv"),
  ("Finite-TC-PMSM-v0", "FiniteTorqueControlPermanentMagnetSynchronousMotorEnv"),
  ("Finite-CC-PMSM-v0", "FiniteCurrentControlPermanentMagnetSynchronousMotorEnv"),
  ("Cont-CC-PMSM-v0", "ContCurrentControlPermanentMagnetSynchronousMotorEnv"),
  ("Cont-TC-PMSM-v0", "ContTorqueControlPermanentMagnetSynchronousMotorEnv"),
  ("Cont-SC-PMSM-v0", "ContSpeedControlPermanentMagnetSynchronousMotorEnv"),
  ("Finite-SC-EESM-v0", "FiniteSpeedControlExternallyExcitedSynchronousMotorEnv"),
  ("Finite-TC-EESM-v0", "FiniteTorqueControlExternallyExcitedSynchronousMotorEnv"),
  ("Finite-CC-EESM-v0", "FiniteCurrentControlExternallyExcitedSynchronousMotorEnv"),
  ("Cont-CC-EESM-v0", "ContCurrentControlExternallyExcitedSynchronousMotorEnv"),
  ("Cont-TC-EESM-v0", "ContTorqueControlExternallyExcitedSynchronousMotorEnv"),
  ("Cont-SC-EESM-v0", "ContSpeedControlExternallyExcitedSynchronousMotorEnv"),
  ("Finite-SC-SynRM-v0", "FiniteSpeedControlSynchronousReluctanceMotorEnv"),
  ("Finite-TC-SynRM-v0", "FiniteTorqueControlSynchronousReluctanceMotorEnv"),
  ("Finite-CC-SynRM-v0", "FiniteCurrentControlSynchronousReluctanceMotorEnv"),
  ("Cont-CC-SynRM-v0", "ContCurrentControlSynchronousReluctanceMotorEnv"),
  ("Cont-TC-SynRM-v0", "ContTorqueControlSynchronousReluctanceMotorEnv"),
  ("Cont-SC-SynRM-v0", "ContSpeedControlSynchronousReluctanceMotorEnv"),
  ("Finite-SC-SCIM-v0", "FiniteSpeedControlSquirrelCageInductionMotorEnv"),
  ("Finite-TC-SCIM-v0", "FiniteTorqueControlSquirrelCageInductionMotorEnv"),
  ("Finite-CC-SCIM-v0", "FiniteCurrentControlSquirrelCageInductionMotorEnv"),
  ("Cont-CC-SCIM-v0", "ContCurrentControlSquirrelCageInductionMotorEnv"),
  ("Cont-TC-SCIM-v0", "ContTorqueControlSquirrelCageInductionMotorEnv"),
  ("Cont-SC-SCIM-v0", "ContSpeedControlSquirrelCageInductionMotorEnv"),
  ("Finite-SC-DFIM-v0", "FiniteSpeedControlDoublyFedInductionMotorEnv"),
  ("Finite-TC-DFIM-v0", "FiniteTorqueControlDoublyFedInductionMotorEnv"),
  ("Finite-CC-DFIM-v0", "FiniteCurrentControlDoublyFedInductionMotorEnv"),
  ("Cont-CC-DFIM-v0", "ContCurrentControlDoublyFedInductionMotorEnv"),
  ("Cont-TC-DFIM-v0", "ContTorqueControlDoublyFedInductionMotorEnv"),
  ("Cont-SC-DFIM-v0", "ContSpeedControlDoublyFedInductionMotorEnv")]

/-- Classes of the externally excited DC motor (`envs/gym_dcm/extex_dc_motor_env`). -/
def extExDcClasses : List (String × Defaults) := [
  -- cont_cc_extex_dc_env.py 93–203
  ("ContCurrentControlDcExternallyExcitedMotorEnv",
    { motor := .extExDc, action := .continuous, converter := .multi [.four, .four],
      load := .constantSpeed 100, supply := 60, tau := 1 / 10000,
      limited := ["i_a", "i_e"], squares := [],
      references := .multiple [⟨"i_a", (1 / 1000, 1 / 10), none⟩,
        ⟨"i_e", (1 / 1000, 1 / 10), none⟩],
      weights := [("i_a", 1 / 2), ("i_e", 1 / 2)] }),
  -- cont_sc_extex_dc_env.py 90–195
  ("ContSpeedControlDcExternallyExcitedMotorEnv",
    { motor := .extExDc, action := .continuous, converter := .multi [.four, .four],
      load := .polynomial [("a", 0), ("b", 0), ("c", 0), ("j_load", 1 / 10000)], supply := 60, tau := 1 / 10000,
      limited := ["i_a", "i_e"], squares := [],
      references := .one ⟨"omega", (1 / 1000, 1 / 10), none⟩,
      weights := [("omega", 1)] }),
  -- cont_tc_extex_dc_env.py 90–193
  ("ContTorqueControlDcExternallyExcitedMotorEnv",
    { motor := .extExDc, action := .continuous, converter := .multi [.four, .four],
      load := .constantSpeed 100, supply := 60, tau := 1 / 10000,
      limited := ["i_a", "i_e"], squares := [],
      references := .one ⟨"torque", (1 / 1000, 1 / 10), none⟩,
      weights := [("torque", 1)] }),
  -- finite_cc_extex_dc_env.py 93–203
  ("FiniteCurrentControlDcExternallyExcitedMotorEnv",
    { motor := .extExDc, action := .finite, converter := .multi [.four, .four],
      load := .constantSpeed 100, supply := 60, tau := 1 / 100000,
      limited := ["i_a", "i_e"], squares := [],
      references := .multiple [⟨"i_a", (1 / 1000, 1 / 10), none⟩,
        ⟨"i_e", (1 / 1000, 1 / 10), none⟩],
      weights := [("i_a", 1 / 2), ("i_e", 1 / 2)] }),
  -- finite_sc_extex_dc_env.py 90–196
  ("FiniteSpeedControlDcExternallyExcitedMotorEnv",
    { motor := .extExDc, action := .finite, converter := .multi [.four, .four],
      load := .polynomial [("a", 0), ("b", 0), ("c", 0), ("j_load", 1 / 10000)], supply := 60, tau := 1 / 100000,
      limited := ["i_a", "i_e"], squares := [],
      references := .one ⟨"omega", (1 / 1000, 1 / 10), none⟩,
      weights := [("omega", 1)] }),
  -- finite_tc_extex_dc_env.py 90–191
  ("FiniteTorqueControlDcExternallyExcitedMotorEnv",
    { motor := .extExDc, action := .finite, converter := .multi [.four, .four],
      load := .constantSpeed 100, supply := 60, tau := 1 / 100000,
      limited := ["i_a", "i_e"], squares := [],
      references := .one ⟨"torque", (1 / 1000, 1 / 10), none⟩,
      weights := [("torque", 1)] })]

/-- Classes of the permanently excited DC motor (`envs/gym_dcm/permex_dc_motor_env`). -/
def permExDcClasses : List (String × Defaults) := [
  -- cont_cc_permex_dc_env.py 92–188
  ("ContCurrentControlDcPermanentlyExcitedMotorEnv",
    { motor := .permExDc, action := .continuous, converter := .single .four,
      load := .constantSpeed 100, supply := 60, tau := 1 / 10000,
      limited := ["i"], squares := [],
      references := .one ⟨"i", (1 / 100, 1 / 10), none⟩,
      weights := [("i", 1)] }),
  -- cont_sc_permex_dc_env.py 92–193
  ("ContSpeedControlDcPermanentlyExcitedMotorEnv",
    { motor := .permExDc, action := .continuous, converter := .single .four,
      load := .polynomial [("a", 0), ("b", 0), ("c", 0), ("j_load", 1 / 10000)], supply := 60, tau := 1 / 10000,
      limited := ["i"], squares := [],
      references := .one ⟨"omega", (1 / 1000, 1 / 20), none⟩,
      weights := [("omega", 1)] }),
  -- cont_tc_permex_dc_env.py 93–189
  ("ContTorqueControlDcPermanentlyExcitedMotorEnv",
    { motor := .permExDc, action := .continuous, converter := .single .four,
      load := .constantSpeed 100, supply := 60, tau := 1 / 10000,
      limited := ["i"], squares := [],
      references := .one ⟨"torque", (1 / 100, 1 / 10), none⟩,
      weights := [("torque", 1)] }),
  -- finite_cc_permex_dc_env.py 92–188
  ("FiniteCurrentControlDcPermanentlyExcitedMotorEnv",
    { motor := .permExDc, action := .finite, converter := .single .four,
      load := .constantSpeed 100, supply := 60, tau := 1 / 100000,
      limited := ["i"], squares := [],
      references := .one ⟨"i", (1 / 100, 1 / 10), none⟩,
      weights := [("i", 1)] }),
  -- finite_sc_permex_dc_env.py 92–194
  ("FiniteSpeedControlDcPermanentlyExcitedMotorEnv",
    { motor := .permExDc, action := .finite, converter := .single .four,
      load := .polynomial [("a", 0), ("b", 0), ("c", 0), ("j_load", 1 / 1000)], supply := 60, tau := 1 / 100000,
      limited := ["i"], squares := [],
      references := .one ⟨"omega", (1 / 1000, 1 / 200), none⟩,
      weights := [("omega", 1)] }),
  -- finite_tc_permex_dc_env.py 92–188
  ("FiniteTorqueControlDcPermanentlyExcitedMotorEnv",
    { motor := .permExDc, action := .finite, converter := .single .four,
      load := .constantSpeed 100, supply := 60, tau := 1 / 100000,
      limited := ["i"], squares := [],
      references := .one ⟨"torque", (1 / 100, 1 / 10), none⟩,
      weights := [("torque", 1)] })]

/-- Classes of the series DC motor (`envs/gym_dcm/series_dc_motor_env`). -/
def seriesDcClasses : List (String × Defaults) := [
  -- cont_cc_series_dc_env.py 90–187
  ("ContCurrentControlDcSeriesMotorEnv",
    { motor := .seriesDc, action := .continuous, converter := .single .four,
      load := .constantSpeed 100, supply := 60, tau := 1 / 10000,
      limited := ["i"], squares := [],
      references := .one ⟨"i", (1 / 1000, 1 / 10), none⟩,
      weights := [("i", 1)] }),
  -- cont_sc_series_dc_env.py 90–191
  ("ContSpeedControlDcSeriesMotorEnv",
    { motor := .seriesDc, action := .continuous, converter := .single .four,
      load := .polynomial [("a", 1 / 100), ("b", 1 / 20), ("c", 0), ("j_load", 1 / 10000)], supply := 60, tau := 1 / 10000,
      limited := ["i"], squares := [],
      references := .one ⟨"omega", (1 / 1000, 1 / 50), none⟩,
      weights := [("omega", 1)] }),
  -- cont_tc_series_dc_env.py 90–186
  ("ContTorqueControlDcSeriesMotorEnv",
    { motor := .seriesDc, action := .continuous, converter := .single .four,
      load := .constantSpeed 100, supply := 60, tau := 1 / 10000,
      limited := ["i"], squares := [],
      references := .one ⟨"torque", (1 / 1000, 1 / 10), none⟩,
      weights := [("torque", 1)] }),
  -- finite_cc_series_dc_env.py 90–186
  ("FiniteCurrentControlDcSeriesMotorEnv",
    { motor := .seriesDc, action := .finite, converter := .single .four,
      load := .constantSpeed 100, supply := 420, tau := 1 / 100000,
      limited := ["i"], squares := [],
      references := .one ⟨"i", (1 / 1000, 1 / 10), none⟩,
      weights := [("i", 1)] }),
  -- finite_sc_series_dc_env.py 90–191
  ("FiniteSpeedControlDcSeriesMotorEnv",
    { motor := .seriesDc, action := .finite, converter := .single .four,
      load := .polynomial [("a", 3 / 20), ("b", 1 / 20), ("c", 0), ("j_load", 1 / 10000)], supply := 60, tau := 1 / 100000,
      limited := ["i"], squares := [],
      references := .one ⟨"omega", (1 / 1000, 1 / 200), none⟩,
      weights := [("omega", 1)] }),
  -- finite_tc_series_dc_env.py 90–187
  ("FiniteTorqueControlDcSeriesMotorEnv",
    { motor := .seriesDc, action := .finite, converter := .single .four,
      load := .constantSpeed 100, supply := 420, tau := 1 / 100000,
      limited := ["i"], squares := [],
      references := .one ⟨"torque", (1 / 1000, 1 / 10), none⟩,
      weights := [("torque", 1)] })]

/-- Classes of the shunt DC motor (`envs/gym_dcm/shunt_dc_motor_env`). -/
def shuntDcClasses : List (String × Defaults) := [
  -- cont_cc_shunt_dc_env.py 91–189
  ("ContCurrentControlDcShuntMotorEnv",
    { motor := .shuntDc, action := .continuous, converter := .single .four,
      load := .constantSpeed 100, supply := 60, tau := 1 / 10000,
      limited := ["i_a", "i_e"], squares := [],
      references := .one ⟨"i_a", (1 / 1000, 1 / 10), none⟩,
      weights := [("i_a", 1)], currentSums := [["i_a", "i_e"]] }),
  -- cont_sc_shunt_dc_env.py 91–193
  ("ContSpeedControlDcShuntMotorEnv",
    { motor := .shuntDc, action := .continuous, converter := .single .four,
      load := .polynomial [("a", 1 / 20), ("b", 1 / 100), ("c", 0), ("j_load", 1 / 10000)], supply := 60, tau := 1 / 10000,
      limited := ["i_a", "i_e"], squares := [],
      references := .one ⟨"omega", (1 / 1000, 3 / 100), none⟩,
      weights := [("omega", 1)], currentSums := [["i_a", "i_e"]] }),
  -- cont_tc_shunt_dc_env.py 91–188
  ("ContTorqueControlDcShuntMotorEnv",
    { motor := .shuntDc, action := .continuous, converter := .single .four,
      load := .constantSpeed 230, supply := 60, tau := 1 / 10000,
      limited := ["i_a", "i_e"], squares := [],
      references := .one ⟨"torque", (1 / 1000, 1 / 10), some (0, 4 / 5)⟩,
      weights := [("torque", 1)], currentSums := [["i_a", "i_e"]] }),
  -- finite_cc_shunt_dc_env.py 91–194
  ("FiniteCurrentControlDcShuntMotorEnv",
    { motor := .shuntDc, action := .finite, converter := .single .four,
      load := .constantSpeed 100, supply := 60, tau := 1 / 100000,
      limited := ["i_a", "i_e"], squares := [],
      references := .one ⟨"i_a", (1 / 1000, 1 / 10), none⟩,
      weights := [("i_a", 1)], currentSums := [["i_a", "i_e"]] }),
  -- finite_sc_shunt_dc_env.py 91–193
  ("FiniteSpeedControlDcShuntMotorEnv",
    { motor := .shuntDc, action := .finite, converter := .single .four,
      load := .polynomial [("a", 1 / 20), ("b", 1 / 100), ("c", 0), ("j_load", 1 / 10000)], supply := 60, tau := 1 / 100000,
      limited := ["i_a", "i_e"], squares := [],
      references := .one ⟨"omega", (1 / 1000, 1 / 200), none⟩,
      weights := [("omega", 1)], currentSums := [["i_a", "i_e"]] }),
  -- finite_tc_shunt_dc_env.py 91–187
  ("FiniteTorqueControlDcShuntMotorEnv",
    { motor := .shuntDc, action := .finite, converter := .single .four,
      load := .constantSpeed 100, supply := 60, tau := 1 / 100000,
      limited := ["i_a", "i_e"], squares := [],
      references := .one ⟨"torque", (1 / 1000, 1 / 10), none⟩,
      weights := [("torque", 1)], currentSums := [["i_a", "i_e"]] })]

/-- Classes of the externally excited synchronous motor (`envs/gym_eesm`). -/
def eesmClasses : List (String × Defaults) := [
  -- cont_cc_eesm_env.py 96–201
  ("ContCurrentControlExternallyExcitedSynchronousMotorEnv",
    { motor := .eesm, action := .continuous, converter := .multi [.b6, .four],
      load := .constantSpeed 100, supply := 300, tau := 1 / 10000,
      limited := ["i_e"], squares := [["i_sq", "i_sd"]],
      references := .multiple [⟨"i_sd", (1 / 1000, 1 / 10), none⟩, ⟨"i_sq", (1 / 1000, 1 / 10), none⟩,
        ⟨"i_e", (1 / 1000, 1 / 10), some (0, 1)⟩],
      weights := [("i_sd", 1 / 3), ("i_sq", 1 / 3), ("i_e", 1 / 3)] }),
  -- cont_sc_eesm_env.py 94–199
  ("ContSpeedControlExternallyExcitedSynchronousMotorEnv",
    { motor := .eesm, action := .continuous, converter := .multi [.b6, .four],
      load := .polynomial [("a", 1 / 100), ("b", 1 / 100), ("c", 0)], supply := 420, tau := 1 / 10000,
      limited := ["i_e"], squares := [["i_sq", "i_sd"]],
      references := .one ⟨"omega", (1 / 1000, 1 / 10), none⟩,
      weights := [("omega", 1)] }),
  -- cont_tc_eesm_env.py 98–198
  ("ContTorqueControlExternallyExcitedSynchronousMotorEnv",
    { motor := .eesm, action := .continuous, converter := .multi [.b6, .four],
      load := .constantSpeed 100, supply := 420, tau := 1 / 10000,
      limited := ["i_e"], squares := [["i_sq", "i_sd"]],
      references := .one ⟨"torque", (1 / 1000, 1 / 10), none⟩,
      weights := [("torque", 1)] }),
  -- finite_cc_eesm_env.py 96–201
  ("FiniteCurrentControlExternallyExcitedSynchronousMotorEnv",
    { motor := .eesm, action := .finite, converter := .multi [.b6, .four],
      load := .constantSpeed 100, supply := 420, tau := 1 / 100000,
      limited := ["i_e"], squares := [["i_sq", "i_sd"]],
      references := .multiple [⟨"i_sd", (1 / 1000, 1 / 10), none⟩, ⟨"i_sq", (1 / 1000, 1 / 10), none⟩,
        ⟨"i_e", (1 / 1000, 1 / 10), none⟩],
      weights := [("i_sd", 1 / 3), ("i_sq", 1 / 3), ("i_e", 1 / 3)] }),
  -- finite_sc_eesm_env.py 93–193
  ("FiniteSpeedControlExternallyExcitedSynchronousMotorEnv",
    { motor := .eesm, action := .finite, converter := .multi [.b6, .four],
      load := .polynomial [], supply := 420, tau := 1 / 100000,
      limited := ["i_e"], squares := [["i_sq", "i_sd"]],
      references := .one ⟨"omega", (1 / 1000, 1 / 10), none⟩,
      weights := [("omega", 1)] }),
  -- finite_tc_eesm_env.py 93–193
  ("FiniteTorqueControlExternallyExcitedSynchronousMotorEnv",
    { motor := .eesm, action := .finite, converter := .multi [.b6, .four],
      load := .constantSpeed 100, supply := 420, tau := 1 / 100000,
      limited := ["i_e"], squares := [["i_sq", "i_sd"]],
      references := .one ⟨"torque", (1 / 1000, 1 / 10), none⟩,
      weights := [("torque", 1)] })]

/-- Classes of the doubly fed induction motor (`envs/gym_im/doubly_fed_induction_motor_envs`). -/
def dfimClasses : List (String × Defaults) := [
  -- cont_cc_dfim_env.py 103–208
  ("ContCurrentControlDoublyFedInductionMotorEnv",
    { motor := .dfim, action := .continuous, converter := .multi [.b6, .b6],
      load := .constantSpeed 100, supply := 420, tau := 1 / 10000,
      limited := [], squares := [["i_sq", "i_sd"]],
      references := .multiple [⟨"i_sd", (1 / 1000, 1 / 10), none⟩, ⟨"i_sq", (1 / 1000, 1 / 10), none⟩],
      weights := [("i_sd", 1 / 2), ("i_sq", 1 / 2)] }),
  -- cont_sc_dfim_env.py 100–205
  ("ContSpeedControlDoublyFedInductionMotorEnv",
    { motor := .dfim, action := .continuous, converter := .multi [.b6, .b6],
      load := .polynomial [("a", 1 / 100), ("b", 1 / 100), ("c", 0)], supply := 420, tau := 1 / 10000,
      limited := [], squares := [["i_sq", "i_sd"]],
      references := .one ⟨"omega", (1 / 1000, 1 / 100), none⟩,
      weights := [("omega", 1)] }),
  -- cont_tc_dfim_env.py 103–203
  ("ContTorqueControlDoublyFedInductionMotorEnv",
    { motor := .dfim, action := .continuous, converter := .multi [.b6, .b6],
      load := .constantSpeed 100, supply := 420, tau := 1 / 10000,
      limited := [], squares := [["i_sq", "i_sd"]],
      references := .one ⟨"torque", (1 / 1000, 1 / 10), none⟩,
      weights := [("torque", 1)] }),
  -- finite_cc_dfim_env.py 103–208
  ("FiniteCurrentControlDoublyFedInductionMotorEnv",
    { motor := .dfim, action := .finite, converter := .multi [.b6, .b6],
      load := .constantSpeed 100, supply := 420, tau := 1 / 100000,
      limited := [], squares := [["i_sq", "i_sd"]],
      references := .multiple [⟨"i_sd", (1 / 1000, 1 / 10), none⟩, ⟨"i_sq", (1 / 1000, 1 / 10), none⟩],
      weights := [("i_sd", 1 / 2), ("i_sq", 1 / 2)] }),
  -- finite_sc_dfim_env.py 100–205
  ("FiniteSpeedControlDoublyFedInductionMotorEnv",
    { motor := .dfim, action := .finite, converter := .multi [.b6, .b6],
      load := .polynomial [("a", 1 / 100), ("b", 1 / 100), ("c", 0)], supply := 420, tau := 1 / 100000,
      limited := [], squares := [["i_sq", "i_sd"]],
      references := .one ⟨"omega", (1 / 1000, 1 / 100), none⟩,
      weights := [("omega", 1)] }),
  -- finite_tc_dfim_env.py 100–200
  ("FiniteTorqueControlDoublyFedInductionMotorEnv",
    { motor := .dfim, action := .finite, converter := .multi [.b6, .b6],
      load := .constantSpeed 100, supply := 420, tau := 1 / 100000,
      limited := [], squares := [["i_sq", "i_sd"]],
      references := .one ⟨"torque", (1 / 1000, 1 / 10), none⟩,
      weights := [("torque", 1)] })]

/-- Classes of the squirrel cage induction motor (`envs/gym_im/squirrel_cage_induction_motor_envs`). -/
def scimClasses : List (String × Defaults) := [
  -- cont_cc_scim_env.py 101–197
  ("ContCurrentControlSquirrelCageInductionMotorEnv",
    { motor := .scim, action := .continuous, converter := .single .b6,
      load := .constantSpeed 100, supply := 420, tau := 1 / 10000,
      limited := [], squares := [["i_sq", "i_sd"]],
      references := .multiple [⟨"i_sd", (1 / 1000, 1 / 10), none⟩, ⟨"i_sq", (1 / 1000, 1 / 10), none⟩],
      weights := [("i_sd", 1 / 2), ("i_sq", 1 / 2)] }),
  -- cont_sc_scim_env.py 98–195
  ("ContSpeedControlSquirrelCageInductionMotorEnv",
    { motor := .scim, action := .continuous, converter := .single .b6,
      load := .polynomial [("a", 1 / 100), ("b", 1 / 100), ("c", 0)], supply := 420, tau := 1 / 10000,
      limited := [], squares := [["i_sq", "i_sd"]],
      references := .one ⟨"omega", (1 / 1000, 1 / 100), none⟩,
      weights := [("omega", 1)] }),
  -- cont_tc_scim_env.py 101–192
  ("ContTorqueControlSquirrelCageInductionMotorEnv",
    { motor := .scim, action := .continuous, converter := .single .b6,
      load := .constantSpeed 100, supply := 420, tau := 1 / 10000,
      limited := [], squares := [["i_sq", "i_sd"]],
      references := .one ⟨"torque", (1 / 1000, 1 / 10), none⟩,
      weights := [("torque", 1)] }),
  -- finite_cc_scim_env.py 101–202
  ("FiniteCurrentControlSquirrelCageInductionMotorEnv",
    { motor := .scim, action := .finite, converter := .single .b6,
      load := .constantSpeed 100, supply := 420, tau := 1 / 100000,
      limited := [], squares := [["i_sq", "i_sd"]],
      references := .multiple [⟨"i_sd", (1 / 1000, 1 / 10), none⟩, ⟨"i_sq", (1 / 1000, 1 / 10), none⟩],
      weights := [("i_sd", 1 / 2), ("i_sq", 1 / 2)] }),
  -- finite_sc_scim_env.py 98–200
  ("FiniteSpeedControlSquirrelCageInductionMotorEnv",
    { motor := .scim, action := .finite, converter := .single .b6,
      load := .polynomial [("a", 1 / 100), ("b", 1 / 100), ("c", 0)], supply := 420, tau := 1 / 100000,
      limited := [], squares := [["i_sq", "i_sd"]],
      references := .one ⟨"omega", (1 / 1000, 1 / 100), none⟩,
      weights := [("omega", 1)] }),
  -- finite_tc_scim_env.py 98–194
  ("FiniteTorqueControlSquirrelCageInductionMotorEnv",
    { motor := .scim, action := .finite, converter := .single .b6,
      load := .constantSpeed 100, supply := 420, tau := 1 / 100000,
      limited := [], squares := [["i_sq", "i_sd"]],
      references := .one ⟨"torque", (1 / 1000, 1 / 10), none⟩,
      weights := [("torque", 1)] })]

/-- Classes of the permanent magnet synchronous motor (`envs/gym_pmsm`). -/
def pmsmClasses : List (String × Defaults) := [
  -- cont_cc_pmsm_env.py 94–190
  ("ContCurrentControlPermanentMagnetSynchronousMotorEnv",
    { motor := .pmsm, action := .continuous, converter := .single .b6,
      load := .constantSpeed 100, supply := 300, tau := 1 / 10000,
      limited := [], squares := [["i_sq", "i_sd"]],
      references := .multiple [⟨"i_sd", (1 / 1000, 1 / 10), none⟩, ⟨"i_sq", (1 / 1000, 1 / 10), none⟩],
      weights := [("i_sd", 1 / 2), ("i_sq", 1 / 2)] }),
  -- cont_sc_pmsm_env.py 91–187
  ("ContSpeedControlPermanentMagnetSynchronousMotorEnv",
    { motor := .pmsm, action := .continuous, converter := .single .b6,
      load := .polynomial [("a", 1 / 100), ("b", 1 / 100), ("c", 0)], supply := 420, tau := 1 / 10000,
      limited := [], squares := [["i_sq", "i_sd"]],
      references := .one ⟨"omega", (1 / 1000, 1 / 10), none⟩,
      weights := [("omega", 1)] }),
  -- cont_tc_pmsm_env.py 94–185
  ("ContTorqueControlPermanentMagnetSynchronousMotorEnv",
    { motor := .pmsm, action := .continuous, converter := .single .b6,
      load := .constantSpeed 100, supply := 420, tau := 1 / 10000,
      limited := [], squares := [["i_sq", "i_sd"]],
      references := .one ⟨"torque", (1 / 1000, 1 / 10), none⟩,
      weights := [("torque", 1)] }),
  -- finite_cc_pmsm_env.py 94–195
  ("FiniteCurrentControlPermanentMagnetSynchronousMotorEnv",
    { motor := .pmsm, action := .finite, converter := .single .b6,
      load := .constantSpeed 100, supply := 420, tau := 1 / 100000,
      limited := [], squares := [["i_sq", "i_sd"]],
      references := .multiple [⟨"i_sd", (1 / 1000, 1 / 10), none⟩, ⟨"i_sq", (1 / 1000, 1 / 10), none⟩],
      weights := [("i_sd", 1 / 2), ("i_sq", 1 / 2)] }),
  -- finite_sc_pmsm_env.py 91–192
  ("FiniteSpeedControlPermanentMagnetSynchronousMotorEnv",
    { motor := .pmsm, action := .finite, converter := .single .b6,
      load := .polynomial [("a", 1 / 100), ("b", 1 / 100), ("c", 0)], supply := 420, tau := 1 / 100000,
      limited := [], squares := [["i_sq", "i_sd"]],
      references := .one ⟨"omega", (1 / 1000, 1 / 10), none⟩,
      weights := [("omega", 1)] }),
  -- finite_tc_pmsm_env.py 91–187
  ("FiniteTorqueControlPermanentMagnetSynchronousMotorEnv",
    { motor := .pmsm, action := .finite, converter := .single .b6,
      load := .constantSpeed 100, supply := 420, tau := 1 / 100000,
      limited := [], squares := [["i_sq", "i_sd"]],
      references := .one ⟨"torque", (1 / 1000, 1 / 10), none⟩,
      weights := [("torque", 1)] })]

/-- Classes of the synchronous reluctance motor (`envs/gym_synrm`). -/
def synRmClasses : List (String × Defaults) := [
  -- cont_cc_synrm_env.py 94–190
  ("ContCurrentControlSynchronousReluctanceMotorEnv",
    { motor := .synRm, action := .continuous, converter := .single .b6,
      load := .constantSpeed 100, supply := 420, tau := 1 / 10000,
      limited := [], squares := [["i_sq", "i_sd"]],
      references := .multiple [⟨"i_sd", (1 / 1000, 1 / 10), none⟩, ⟨"i_sq", (1 / 1000, 1 / 10), none⟩],
      weights := [("i_sd", 1 / 2), ("i_sq", 1 / 2)] }),
  -- cont_sc_synrm_env.py 91–187
  ("ContSpeedControlSynchronousReluctanceMotorEnv",
    { motor := .synRm, action := .continuous, converter := .single .b6,
      load := .polynomial [("a", 1 / 100), ("b", 1 / 100), ("c", 0)], supply := 420, tau := 1 / 10000,
      limited := [], squares := [["i_sq", "i_sd"]],
      references := .one ⟨"omega", (1 / 1000, 1 / 100), none⟩,
      weights := [("omega", 1)] }),
  -- cont_tc_synrm_env.py 94–185
  ("ContTorqueControlSynchronousReluctanceMotorEnv",
    { motor := .synRm, action := .continuous, converter := .single .b6,
      load := .constantSpeed 100, supply := 420, tau := 1 / 10000,
      limited := [], squares := [["i_sq", "i_sd"]],
      references := .one ⟨"torque", (1 / 1000, 1 / 10), none⟩,
      weights := [("torque", 1)] }),
  -- finite_cc_synrm_env.py 94–195
  ("FiniteCurrentControlSynchronousReluctanceMotorEnv",
    { motor := .synRm, action := .finite, converter := .single .b6,
      load := .constantSpeed 100, supply := 420, tau := 1 / 100000,
      limited := [], squares := [["i_sq", "i_sd"]],
      references := .multiple [⟨"i_sd", (1 / 1000, 1 / 10), none⟩, ⟨"i_sq", (1 / 1000, 1 / 10), none⟩],
      weights := [("i_sd", 1 / 2), ("i_sq", 1 / 2)] }),
  -- finite_sc_synrm_env.py 91–193
  ("FiniteSpeedControlSynchronousReluctanceMotorEnv",
    { motor := .synRm, action := .finite, converter := .single .b6,
      load := .polynomial [("a", 1 / 100), ("b", 1 / 100), ("c", 0)], supply := 420, tau := 1 / 100000,
      limited := [], squares := [["i_sq", "i_sd"]],
      references := .one ⟨"omega", (1 / 1000, 1 / 100), none⟩,
      weights := [("omega", 1)] }),
  -- finite_tc_synrm_env.py 91–187
  ("FiniteTorqueControlSynchronousReluctanceMotorEnv",
    { motor := .synRm, action := .finite, converter := .single .b6,
      load := .constantSpeed 100, supply := 420, tau := 1 / 100000,
      limited := [], squares := [["i_sq", "i_sd"]],
      references := .one ⟨"torque", (1 / 1000, 1 / 10), none⟩,
      weights := [("torque", 1)] })]

/-- The environment classes with the default values of their arguments. -/
def classes : List (String × Defaults) :=
  extExDcClasses ++ permExDcClasses ++ seriesDcClasses ++ shuntDcClasses ++ eesmClasses ++ dfimClasses ++ scimClasses ++ pmsmClasses ++ synRmClasses


/-- `gymnasium.make(id)` up to the call of the class: the class registered last under this id -/
def make (id : String) : Option (String × Defaults) :=
  (registered.reverse.lookup id).bind fun name => (classes.lookup name).map fun d => (name, d)

/-! ## The systems -/

/-- `state_names` of the systems with loads whose only state is the speed, as the default loads (mechanical_load.py 92). -/
def stateNames : MotorType → List String
  | .permExDc | .seriesDc => dcNames ["omega"] ["i"] ["u"]
  | .extExDc => dcNames ["omega"] ["i_a", "i_e"] ["u_a", "u_e"]
  | .shuntDc => dcNames ["omega"] ["i_a", "i_e"] ["u"]
  | .eesm => eesmNames ["omega"]
  | .dfim => dfimNames ["omega"]
  | .scim => scimNames ["omega"]
  | .pmsm | .synRm => syncNames ["omega"]

/-- `state_space.low` of the three phase systems (physical_systems.py 437–442, 567–572, 712–717, 882–887) -/
def acLow (n : ℕ) : List ℝ := List.replicate (n - 1) (-1) ++ [0]

/-- `state_space.low` of the DC systems (physical_systems.py 305–318) with an ideal supply: what the motor announces, 0 for the
supply voltage -/
noncomputable def dcLow (dict : List (String × ℝ)) : List ℝ := dict.map Prod.snd ++ [0]

/-- `currents.low` and `voltages.low` of four quadrant converters, alone and as parts of a multi converter (converters.py 331–334,
455–458, 552–580, 668–700) -/
def fourLow (_ : ℕ) : ℝ := -1

/-- `state_space.low` of the default environments.  The entries of `get_state_space` are in the order of the state names. -/
noncomputable def low : MotorType → List ℝ
  | .permExDc => dcLow (Space.permEx fourLow fourLow)
  | .seriesDc => dcLow (Space.series fourLow fourLow)
  | .extExDc => dcLow (Space.extEx fourLow fourLow)
  | .shuntDc => dcLow (Space.shunt fourLow fourLow)
  | t => acLow (stateNames t).length

/-- `state_space.high`: 1 (the supply voltage of an ideal supply is its nominal voltage) -/
def high (t : MotorType) : List ℝ := List.replicate (stateNames t).length 1

/-- The environment of a class with its default arguments; the rest of its arguments as in `Assembly.Setup`. -/
noncomputable def setup {Y U A S C P G τ : Type} (d : Defaults) (p : Parts ℝ Y U A S C P) (f : Frame ℝ Y U A)
    (rep : Y → List ℝ → List ℝ → Except Err (List ℝ)) (limits : List ℝ) (start : G → G × Y) (seedSystem : ℕ → G → G)
    (gen : Refs.RefGen τ ℝ) (seedRef : ℕ → τ → τ) (lower : String → String) (nCb : ℕ) : Setup Y U A S C P G τ where
  p := p
  f := f
  rep := rep
  tau := d.tau
  limits := limits
  names := stateNames d.motor
  low := low d.motor
  high := high d.motor
  start := start
  seedSystem := seedSystem
  gen := gen
  seedRef := seedRef
  lower := lower
  allStates := "all_states"
  wse := Reward.Wse.init (some (.dict (d.weights.map fun w => (w.1, (w.2 : ℝ))))) false none (9 / 10) (.scalar 1) (.num 0)
  limited := d.limited
  squares := d.squares
  filter := none
  nCb := nCb

/-! ## Limits and nominal values -/

/-- `_default_limits` of the motor classes (dc_motor.py 74 and the DC classes, externally_excited_synchronous_motor.py 113,
doubly_fed_induction_motor.py 115, squirrel_cage_induction_motor.py 106, permanent_magnet_synchronous_motor.py 95,
synchronous_reluctance_motor.py 100–106) -/
noncomputable def defLimits : MotorType → Init.Dict ℝ
  | .permExDc => [("omega", 400), ("torque", 38), ("i", 210), ("u", 60)]
  | .extExDc | .seriesDc | .shuntDc => Limits.dcDefLimits
  | .eesm => [("omega", 12000 * Real.pi / 30), ("torque", 0), ("i", 150), ("i_e", 150), ("epsilon", Real.pi), ("u", 320)]
  | .dfim => [("omega", 1800 * Real.pi / 30), ("torque", 0), ("i", 9), ("epsilon", Real.pi), ("u", 720)]
  | .scim => [("omega", 4000 * Real.pi / 30), ("torque", 0), ("i", 11 / 2), ("epsilon", Real.pi), ("u", 560)]
  | .pmsm => Limits.pmsmDefLimits (4000 * Real.pi / 30) Real.pi
  | .synRm => [("i", 18), ("torque", 0), ("omega", 4300 * Real.pi / 30), ("epsilon", Real.pi), ("u", 80)]

/-- `_default_nominal_values` of the motor classes (dc_motor.py 73 and the DC classes, externally_excited_synchronous_motor.py 114,
doubly_fed_induction_motor.py 116, squirrel_cage_induction_motor.py 107, permanent_magnet_synchronous_motor.py 96,
synchronous_reluctance_motor.py 93–99) -/
noncomputable def defNominal : MotorType → Init.Dict ℝ
  | .permExDc => [("omega", 300), ("torque", 16), ("i", 97), ("u", 60)]
  | .extExDc | .seriesDc | .shuntDc => Limits.dcDefNominal
  | .eesm => [("omega", 4300 * Real.pi / 30), ("torque", 0), ("i", 120), ("i_e", 150), ("epsilon", Real.pi), ("u", 320)]
  | .dfim => [("omega", 1650 * Real.pi / 30), ("torque", 0), ("i", 15 / 2), ("epsilon", Real.pi), ("u", 720)]
  | .scim => [("omega", 3000 * Real.pi / 30), ("torque", 0), ("i", 39 / 10), ("epsilon", Real.pi), ("u", 560)]
  | .pmsm => Limits.pmsmDefNominal (3000 * Real.pi / 30) Real.pi
  | .synRm => [("i", 10), ("torque", 0), ("omega", 3000 * Real.pi / 30), ("epsilon", Real.pi), ("u", 80)]

/-- Input and output quantities of the three phase motors.  Of the doubly fed motor those of the first one that is made: further ones
have the rotor quantities several times, with the same values (doubly_fed_induction_motor.py 98–102, 131–132, 142–145). -/
def acIos : MotorType → List (String × String)
  | .pmsm | .synRm => Limits.syncIos
  | .eesm => Limits.eesmIos
  | .scim => Limits.imIos
  | .dfim => Limits.imIos ++ [("u_ra", "i_ra"), ("u_rb", "i_rb"), ("u_rc", "i_rc"), ("u_rd", "i_rd"), ("u_rq", "i_rq"),
      ("u_ralpha", "i_ralpha"), ("u_rbeta", "i_rbeta")]
  | _ => []

/-- Limits and nominal values of a motor made with these `limit_values` and `nominal_values`, for given resistances, torque function
(DC) and torque limit (three phases). -/
noncomputable def motorValues (t : MotorType) (ra re : ℝ) (torque : List ℝ → ℝ)
    (torqueLimit : Init.Dict ℝ → Init.Dict ℝ → Except Err ℝ) (userLimits userNominal : Init.Dict ℝ) :
    Except Err (Init.Dict ℝ × Init.Dict ℝ) :=
  match t with
  | .permExDc => Limits.permExLimits ra torque userLimits userNominal
  | .seriesDc => Limits.seriesLimits ra re torque userLimits userNominal
  | .shuntDc => Limits.shuntLimits ra re torque userLimits userNominal
  | .extExDc => Limits.extExLimits ra re torque userLimits userNominal
  | t => Limits.acLimits (defLimits t) (defNominal t) (acIos t) ra torqueLimit userLimits userNominal

/-- `min` where `none` is infinite -/
def smaller : Option ℝ → Option ℝ → Option ℝ
  | none, y => y
  | x, none => x
  | some x, some y => some (min x y)

/-- An entry of `limits` or `nominal_state` of a physical system (`_set_limits`, `_set_nominal_state`, physical_systems.py 105–123),
given the dictionaries of motor and load and `u_nominal` of the supply; `none` is infinite. -/
noncomputable def systemValue (motor load : Init.Dict ℝ) (supply : ℝ) (n : String) : Option ℝ :=
  if n = "u_sup" then some supply else smaller (Utils.lookup motor n) (Utils.lookup load n)

end GEM.Registry
