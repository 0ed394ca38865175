import Verif.Model.Init
import Verif.Model.Motors

/-!
# Initial states of induction motors

`induction_motor.py` 176–185 (`reset`), 250–285 (`_flux_limit`), `squirrel_cage_induction_motor.py` 146–157 and
`doubly_fed_induction_motor.py` 156–165 (`_update_initial_limits`), `three_phase_motor.py` 135–139, `electric_motor.py` 141–143, 317–324.

The physical systems pass the state of the load as `omega` (`physical_systems.py` 823–827, 1063–1067); here the load has one state, so
that `omega` is a number.  `u` is what `np.random.random_sample()` returns: a number of [0, 1) from numpy's global generator.
-/

namespace GEM.Init

open GEM.Utils GEM.Motor

/-- The attributes that decide about the bounds: `_motor_parameter`, `_nominal_values`, and whether the motor is a DFIM. -/
structure ImAttr where
  mp : ImParams ℝ
  nominal : Dict ℝ
  dfim : Bool

/-- `_flux_limit` (induction_motor.py 250–285): `cur` is `_initial_states` at the time of the call. -/
noncomputable def fluxLimit (m : ImAttr) (omega eps uq urq : ℝ) (cur : Dict ℝ) : Except Err (Fin 2 → ℝ) := do
  let lmr := m.mp.lm / m.mp.lr
  let psi ← if omega = 0 then do
      let i ← get m.nominal "i_sd"
      Except.ok (m.mp.lm * i)
    else do
      let ia ← get cur "i_salpha"
      let ib ← get cur "i_sbeta"
      let i := qInv ![ia, ib] eps
      let x := (m.mp.p * omega * m.mp.sigma * m.mp.ls * i 0 + (m.mp.rs + m.mp.rr * lmr ^ 2) * i 1 + uq + lmr * urq) /
        (-m.mp.p * omega * lmr)
      Except.ok (9 / 10 * clip x 0 |m.mp.lm * i 0|)
  .ok (q ![psi, 0] eps)

/-- `_update_initial_limits` of the SCIM (squirrel_cage_induction_motor.py 146–157) and of the DFIM, which does not take the absolute
values (doubly_fed_induction_motor.py 156–165): new `_initial_limits`. -/
noncomputable def updateInitialLimits (m : ImAttr) (omega u : ℝ) (cur lim : Dict ℝ) : Except Err (Dict ℝ) := do
  let eps := 2 * Real.pi * u - Real.pi
  let uq ← get m.nominal "u_sq"
  let v ← if m.dfim then do
      let urq ← get m.nominal "u_rq"
      fluxLimit m omega eps uq urq cur
    else (fluxLimit m omega eps uq 0 cur).map (fun v => fun i => |v i|)
  .ok (dictUpdate (dictUpdate lim m.nominal) [("psi_ralpha", v 0), ("psi_rbeta", v 1)])

/-- `_initial_limits` after construction (electric_motor.py 141–143): a copy of the nominal values at that time, updated with the
argument `initial_limits`. -/
def limitsMade (nominal arg : Dict ℝ) : Dict ℝ := dictUpdate nominal arg

/-- The attributes that `reset` changes: `_initial_states` and `_initial_limits`. -/
abbrev ImObj := Dict ℝ × Dict ℝ

/-- `InductionMotor.reset` (induction_motor.py 178–185), with the attributes as they are left by exceptions: `initialize` writes the
default and the given values before it checks them. -/
noncomputable def imReset (c : Cfg ℝ) (m : ImAttr) (rvs : Rvs ℝ) (pool : ℕ) (omega u : ℝ) (draws : List ℝ) (o : ImObj) :
    Call ImObj (List ℝ) :=
  if (c.states.getD []).isEmpty then (o, .ok (List.replicate 5 0))
  else
    match updateInitialLimits m omega u o.1 o.2 with
    | .error e => (o, .error e)
    | .ok lim =>
      match motorInitialize c (inductionBounds lim c.interval) rvs pool draws o.1 with
      | .error e => ((dictUpdate (dictUpdate o.1 c.defaults) (c.states.getD []), lim), .error e)
      | .ok cur => ((cur, lim), .ok (cur.map Prod.snd))

/-- What one reset gets from outside: speed of the load, numpy's global draw, draws of the motor's own generator. -/
structure Morning where
  omega : ℝ
  u : ℝ
  draws : List ℝ

/-- Several episodes of one motor. -/
noncomputable def imResets (c : Cfg ℝ) (m : ImAttr) (rvs : Rvs ℝ) (pool : ℕ) :
    List Morning → ImObj → List (Except Err (List ℝ))
  | [], _ => []
  | d :: ds, o =>
    (imReset c m rvs pool d.omega d.u d.draws o).2 :: imResets c m rvs pool ds (imReset c m rvs pool d.omega d.u d.draws o).1

/-- The motor after construction; `early` are the nominal values before the missing ones are filled in. -/
def imMade (c : Cfg ℝ) (early arg : Dict ℝ) : ImObj := (motorInitial c, limitsMade early arg)

end GEM.Init
