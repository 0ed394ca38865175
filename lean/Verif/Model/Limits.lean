import Verif.Model.Init

/-!
# Limits and nominal values of the motors

`src/gym_electric_motor/physical_systems/electric_motors/*.py`: the constructor code that merges the user's `limit_values`
and `nominal_values` with the class defaults and fills the gaps (`_update_limits`).

Default values are parameters where a theorem does not need them.  The names `default…` below are the dictionaries of the
classes.  `_torque_limit` is a parameter: a function of limits and nominal values (its formulas are in `GEM.Motor`).
-/

namespace GEM.Limits

open GEM.Utils GEM.Init

variable {K : Type} [Field K] [LinearOrder K]

/-- Value part of `update_parameter_dict` (utils.py:73-94, with `copy=True`); the store version is
`GEM.Utils.updateParameterDict`. -/
def mergeUser (defaults user : Dict K) : Except Err (Dict K) :=
  if ∀ p ∈ user, p.1 ∈ defaults.map Prod.fst then .ok (dictUpdate defaults user) else .error .key

/-- First loop of `ElectricMotor._update_limits` (electric_motor.py:308-310). -/
def fillLimits (limits agenda : Dict K) : Dict K :=
  agenda.foldl (fun l q => if (lookup l q.1).getD 0 = 0 then dictSet l q.1 q.2 else l) limits

/-- Second loop (electric_motor.py:312-314). -/
def fillNominal (nominal limits nominalD : Dict K) : Dict K :=
  limits.foldl (fun n e => if (lookup n e.1).getD 0 = 0 then dictSet n e.1 ((lookup nominalD e.1).getD e.2) else n) nominal

/-- `ElectricMotor._update_limits` (electric_motor.py:297-316); `omega` is `_default_limits["omega"]`. -/
def updateBase (omega : K) (limits nominal limitsD nominalD : Dict K) : Dict K × Dict K :=
  let l := fillLimits limits (dictSet limitsD "omega" omega)
  (l, fillNominal nominal l nominalD)

/-- `ThreePhaseMotor._update_limits` (three_phase_motor.py:127-133). -/
def updateThreePhase (omega : K) (torqueLimit : Dict K → Dict K → Except Err K) (limits nominal limitsD nominalD : Dict K) :
    Except Err (Dict K × Dict K) := do
  let r := updateBase omega limits nominal limitsD nominalD
  let t ← torqueLimit r.1 r.2
  .ok (updateBase omega r.1 r.2 [("torque", t)] [])

/-- Python's `d.get("i", None) or d[u] / r`. -/
def currentOr (d : Dict K) (u : String) (r : K) : Except Err K :=
  match lookup d "i" with
  | some x => if x = 0 then (get d u).map (· / r) else .ok x
  | none => (get d u).map (· / r)

/-- The loop over input/output voltages and currents (synchronous_motor.py:181-188,
squirrel_cage_induction_motor.py:138-145, doubly_fed_induction_motor.py:142-152), `ul` and `un` being `0.5 * limits["u"]`
and `0.5 * nominal_values["u"]`. -/
def ioLoop (limits nominal : Dict K) (r ul un : K) : List (String × String) → Dict K × Dict K → Except Err (Dict K × Dict K)
  | [], a => .ok a
  | q :: qs, a => do
    let il ← currentOr limits q.1 r
    let inn ← currentOr nominal q.1 r
    ioLoop limits nominal r ul un qs (dictSet (dictSet a.1 q.1 ul) q.2 il, dictSet (dictSet a.2 q.1 un) q.2 inn)

/-- Both agendas (same lines, with the two lines before the loop). -/
def ioAgenda (limits nominal : Dict K) (r : K) (ios : List (String × String)) : Except Err (Dict K × Dict K) := do
  let ul ← get limits "u"
  let un ← get nominal "u"
  ioLoop limits nominal r ((1 / 2) * ul) ((1 / 2) * un) ios ([], [])

/-- Construction of a synchronous or induction motor, the part about limits (electric_motor.py:126-131 and
synchronous_motor.py:174-189, squirrel_cage_induction_motor.py:131-146, doubly_fed_induction_motor.py:135-153).
`ios` are the pairs of `zip(IO_VOLTAGES, IO_CURRENTS)`. The arguments `_limit_values` prepared by
`InductionMotor.__init__` (induction_motor.py:155-167) are ignored by both subclasses. -/
def acLimits (defLimits defNominal : Dict K) (ios : List (String × String)) (r : K)
    (torqueLimit : Dict K → Dict K → Except Err K) (userLimits userNominal : Dict K) : Except Err (Dict K × Dict K) := do
  let limits ← mergeUser defLimits userLimits
  let nominal ← mergeUser defNominal userNominal
  let omega ← get defLimits "omega"
  let a ← ioAgenda limits nominal r ios
  updateThreePhase omega torqueLimit limits nominal a.1 a.2

/-- Input/output quantities of PMSM and SynRM (permanent_magnet_synchronous_motor.py:104-105,
synchronous_reluctance_motor.py:114-115). -/
def syncIos : List (String × String) :=
  [("u_a", "i_a"), ("u_b", "i_b"), ("u_c", "i_c"), ("u_sd", "i_sd"), ("u_sq", "i_sq")]
/-- … of the EESM (externally_excited_synchronous_motor.py:122-123). -/
def eesmIos : List (String × String) := syncIos ++ [("u_e", "i_e")]
/-- … of the induction motors as long as no doubly fed motor has been created (induction_motor.py:102-103). -/
def imIos : List (String × String) :=
  [("u_sa", "i_sa"), ("u_sb", "i_sb"), ("u_sc", "i_sc"), ("u_salpha", "i_salpha"), ("u_sbeta", "i_sbeta"), ("u_sd", "i_sd"),
   ("u_sq", "i_sq")]

/-- `_default_limits` of the PMSM (permanent_magnet_synchronous_motor.py:95); `omega`, `pi` stand for `4e3 * np.pi / 30`
and `math.pi`. -/
def pmsmDefLimits (omega pi : K) : Dict K := [("omega", omega), ("torque", 0), ("i", 400), ("epsilon", pi), ("u", 300)]
/-- `_default_nominal_values` of the PMSM (permanent_magnet_synchronous_motor.py:96). -/
def pmsmDefNominal (omega pi : K) : Dict K := [("omega", omega), ("torque", 0), ("i", 240), ("epsilon", pi), ("u", 300)]

/-- `_default_limits` of the DC motors with excitation winding (dc_motor.py:74 and the subclasses). -/
def dcDefLimits : Dict K :=
  [("omega", 400), ("torque", 38), ("i", 210), ("i_a", 210), ("i_e", 210), ("u", 60), ("u_a", 60), ("u_e", 60)]
/-- `_default_nominal_values` of the DC motors with excitation winding (dc_motor.py:73 and the subclasses). -/
def dcDefNominal : Dict K :=
  [("omega", 300), ("torque", 16), ("i", 97), ("i_a", 97), ("i_e", 97), ("u", 60), ("u_a", 60), ("u_e", 60)]

/-- `DcMotor._update_limits` (dc_motor.py:153-160): the torque entry is computed from the limits before gaps are filled;
`nominal_d` is not passed on. `torque` is the motor's torque as function of the listed currents. -/
def updateDc (omega : K) (torque : List K → K) (currents : List String) (limits nominal limitsD : Dict K) :
    Except Err (Dict K × Dict K) := do
  let is ← currents.mapM (get limits)
  .ok (updateBase omega limits nominal (dictSet limitsD "torque" (torque is)) [])

/-- Python's `d.get("i", None) or d["u"] / r`. -/
def currentOrU (d : Dict K) (r : K) : Except Err K := currentOr d "u" r

/-- `r_a = 1 if r_a == 0 else r_a`. -/
def guardRa (ra : K) : K := if ra = 0 then 1 else ra

/-- Limits of a constructed `DcExternallyExcitedMotor` (dc_externally_excited_motor.py:28-40). -/
def extExLimits (ra re : K) (torque : List K → K) (userLimits userNominal : Dict K) : Except Err (Dict K × Dict K) := do
  let limits ← mergeUser dcDefLimits userLimits
  let nominal ← mergeUser dcDefNominal userNominal
  let ia ← currentOrU limits (guardRa ra)
  let ie ← currentOrU limits re
  updateDc 400 torque ["i_a", "i_e"] limits nominal [("u_a", 60), ("u_e", 60), ("i_a", ia), ("i_e", ie)]

/-- Limits of a constructed `DcShuntMotor` (dc_shunt_motor.py:122-134). -/
def shuntLimits (ra re : K) (torque : List K → K) (userLimits userNominal : Dict K) : Except Err (Dict K × Dict K) := do
  let limits ← mergeUser dcDefLimits userLimits
  let nominal ← mergeUser dcDefNominal userNominal
  let ia ← currentOrU limits (guardRa ra)
  let ie ← currentOrU limits re
  updateDc 400 torque ["i_a", "i_e"] limits nominal [("u", 60), ("i_a", ia), ("i_e", ie)]

/-- Limits of a constructed `DcSeriesMotor` (dc_series_motor.py:89-98). -/
def seriesLimits (ra re : K) (torque : List K → K) (userLimits userNominal : Dict K) : Except Err (Dict K × Dict K) := do
  let limits ← mergeUser dcDefLimits userLimits
  let nominal ← mergeUser dcDefNominal userNominal
  let u ← get limits "u"
  updateDc 400 torque ["i"] limits nominal [("u", 60), ("i", u / (guardRa ra + re))]

/-- Limits of a constructed `DcPermanentlyExcitedMotor` (dc_permanently_excited_motor.py:55-56, 94-104). -/
def permExLimits (ra : K) (torque : List K → K) (userLimits userNominal : Dict K) : Except Err (Dict K × Dict K) := do
  let limits ← mergeUser [("omega", 400), ("torque", 38), ("i", 210), ("u", 60)] userLimits
  let nominal ← mergeUser [("omega", 300), ("torque", 16), ("i", 97), ("u", 60)] userNominal
  let u ← get limits "u"
  updateDc 400 torque ["i"] limits nominal [("u", 60), ("i", u / guardRa ra)]

end GEM.Limits
