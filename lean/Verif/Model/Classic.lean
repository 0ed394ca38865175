import Mathlib.Algebra.Order.Field.Basic
import Verif.Model.Basic

/-!
# The classic controllers of the examples: base controllers and controllers of the DC motors

`examples/classic_controllers/controllers/`: `continuous_controller.py`, `pi_controller.py`, `pid_controller.py`,
`discrete_controller.py`, `on_off_controller.py`, `three_point_controller.py`, `continuous_action_controller.py`,
`dicrete_action_controller.py`, `cascaded_controller.py`.

Arrays are functions of the index: the indices come from `state_names.index`, `CURRENTS_IDX`, `VOLTAGES_IDX` and `np.where` and are in
range.  Plots are left out.  `environment` is the environment itself, its states are not filtered.
-/

set_option linter.unusedSectionVars false

namespace GEM.Classic

open GEM

variable {K : Type} [Field K] [LinearOrder K] [IsStrictOrderedRing K]

/-! ## PI and PID controllers -/

/-- Attributes of a `PIController` (`d = none`) or `PIDController` (`d = d_gain`); a PI controller has no `e_old`. -/
structure Cont (K : Type) where
  p : K
  i : K
  d : Option K
  tau : K
  integrated : K
  eOld : K

/-- the constructors (pi_controller.py 11–17, pid_controller.py 8–22, continuous_controller.py 18–35) with the gains of the stage -/
def Cont.new (p i : K) (d : Option K) (tau : K) : Cont K := ⟨p, i, d, tau, 0, 0⟩

/-- `PIController.control` (pi_controller.py 19–20), `PIDController.control` (pid_controller.py 24–30) -/
def Cont.control (c : Cont K) (state reference : K) : Cont K × K :=
  let y := c.p * (reference - state) + c.i * (c.integrated + (reference - state) * c.tau)
  match c.d with
  | none => (c, y)
  | some d => ({ c with eOld := reference - state }, y + d * (reference - state - c.eOld) / c.tau)

/-- `IController.integrate` (continuous_controller.py 28–29) -/
def Cont.integrate (c : Cont K) (state reference : K) : Cont K :=
  { c with integrated := c.integrated + (reference - state) * c.tau }

/-- `reset` (pi_controller.py 22–23, pid_controller.py 32–34) -/
def Cont.reset (c : Cont K) : Cont K :=
  match c.d with
  | none => { c with integrated := 0 }
  | some _ => { c with integrated := 0, eOld := 0 }

/-- "Check limits and integrate" of the higher stages: integrate inside the limits, clip outside
(continuous_action_controller.py 107–115, 123–131; cascaded_controller.py 153–164, 191–196). -/
def guarded (lo hi y : K) (c : Cont K) (state reference : K) : Cont K × K :=
  if lo ≤ y ∧ y ≤ hi then (c.integrate state reference, y) else (c, clip y lo hi)

/-! ## On-off and three-point controllers -/

/-- attributes of an `OnOffController`; `switch_on_level` is always 1 -/
structure OnOff (K : Type) where
  hysteresis : K
  off : ℤ
  action : ℤ

/-- on_off_controller.py 7–24; `n` is the size of the action space (discrete_controller.py 11–17), `cascaded` is
`int(state_space.low[0])` for a stage above another one -/
def OnOff.new (n : ℕ) (hysteresis : K) (cascaded : Option ℤ) (controlE : Bool) : OnOff K where
  hysteresis := hysteresis
  off := match cascaded with
    | some low => low
    | none => if (n = 3 ∨ n = 4) ∧ controlE = false then 2 else 0
  action := 1

/-- on_off_controller.py 26–33 -/
def OnOff.control (c : OnOff K) (state reference : K) : OnOff K × ℤ :=
  let a := if reference - state > c.hysteresis then 1
    else if reference - state < c.hysteresis then c.off
    else c.action
  ({ c with action := a }, a)

/-- on_off_controller.py 35–36 -/
def OnOff.reset (c : OnOff K) : OnOff K := { c with action := 1 }

/-- attributes of a `ThreePointController`; `positive` is always 1, `neutral` always 0 -/
structure ThreePoint (K : Type) where
  pos : K
  neg : K
  fromPos : K
  fromNeg : K
  negative : ℤ
  action : ℤ
  recent : ℤ

/-- three_point_controller.py 7–36 -/
def ThreePoint.new (n : ℕ) (pos neg fromPos fromNeg : K) (cascaded : Option ℤ) (controlE : Bool) : ThreePoint K where
  pos := pos
  neg := neg
  fromPos := fromPos
  fromNeg := fromNeg
  negative := match cascaded with
    | some low => low
    | none => if (n = 3 ∨ n = 4 ∨ n = 8) ∧ controlE = false then 2 else 0
  action := 0
  recent := 0

/-- three_point_controller.py 38–53 -/
def ThreePoint.control (c : ThreePoint K) (state reference : K) : ThreePoint K × ℤ :=
  if reference - state > c.pos ∨ (c.fromPos < reference - state ∧ c.recent = 1) then
    ({ c with action := 1, recent := 1 }, 1)
  else if reference - state < -c.neg ∨ (-c.fromNeg > reference - state ∧ c.recent = 2) then
    ({ c with action := c.negative, recent := 2 }, c.negative)
  else ({ c with action := 0, recent := 0 }, 0)

/-- three_point_controller.py 55–57 -/
def ThreePoint.reset (c : ThreePoint K) : ThreePoint K := { c with action := 0, recent := 0 }

/-- a `DiscreteController` -/
inductive Disc (K : Type)
  | onOff (c : OnOff K)
  | three (c : ThreePoint K)

/-- `control` of a discrete controller -/
def Disc.control (c : Disc K) (state reference : K) : Disc K × ℤ :=
  match c with
  | .onOff c => (.onOff (c.control state reference).1, (c.control state reference).2)
  | .three c => (.three (c.control state reference).1, (c.control state reference).2)

/-- `reset` of a discrete controller -/
def Disc.reset : Disc K → Disc K
  | .onOff c => .onOff c.reset
  | .three c => .three c.reset

/-! ## Current control of DC motors with continuous actions -/

/-- Attributes of the exciting circuit (continuous_action_controller.py 66–86): index of the reference, limits of the action. -/
structure Exciting (K : Type) where
  refIdx : ℕ
  lo : K
  hi : K

/-- Attributes of a `ContinuousActionController` that never change (continuous_action_controller.py 14–94).  `psi` is `psi_e` or 0 if the
motor has none; `exc` is there for externally excited motors. -/
structure ContAction (K : Type) where
  refState : ℕ
  refIdx : ℕ
  iIdx : ℕ
  omegaIdx : ℕ
  lo : K
  hi : K
  psi : K
  l : Option K
  nomOmega : K
  nomI : K
  nomU : K
  exc : Option (Exciting K)

/-- `action_limit_low`, `action_limit_high` (continuous_action_controller.py 48–57, 76–86; cascaded_controller.py 57–66, 89–94) -/
def actionLimit (bound nominal limit : K) : K := bound * nominal / limit

/-- `feedforward` (continuous_action_controller.py 148–155): `None * …` is a TypeError -/
def ContAction.feedforward (c : ContAction K) (state : ℕ → K) : Except Err K :=
  let psi : Except Err K := if c.psi ≠ 0 then .ok c.psi
    else match c.l with
      | some l => .ok (l * state c.iIdx * c.nomI)
      | none => .error .type
  psi.map fun x => state c.omegaIdx * c.nomOmega * x / c.nomU

/-- `control` (continuous_action_controller.py 92–135); the state consists of the controllers of armature and exciting circuit -/
def ContAction.control (c : ContAction K) (st : Cont K × Cont K) (state reference : ℕ → K) : Call (Cont K × Cont K) (List K) :=
  let a := st.1.control (state c.refState) (reference c.refIdx)
  match c.feedforward state with
  | .error e => ((a.1, st.2), .error e)
  | .ok f =>
    let g := guarded c.lo c.hi (a.2 + f) a.1 (state c.refState) (reference c.refIdx)
    match c.exc with
    | none => ((g.1, st.2), .ok [g.2])
    | some x =>
      let e := st.2.control (state c.iIdx) (reference x.refIdx)
      let h := guarded x.lo x.hi e.2 e.1 (state c.iIdx) (reference x.refIdx)
      ((g.1, h.1), .ok [g.2, h.2])

/-- `reset` (continuous_action_controller.py 142–146) -/
def ContAction.reset (c : ContAction K) (st : Cont K × Cont K) : Cont K × Cont K :=
  (st.1.reset, if c.exc.isSome then st.2.reset else st.2)

/-! ## Current control of DC motors with discrete actions -/

/-- Attributes of a `DiscreteActionController` that never change (dicrete_action_controller.py 13–60); `refE` is the index of the
reference of the exciting current, for externally excited motors. -/
structure DiscAction where
  refState : ℕ
  refIdx : ℕ
  iIdx : ℕ
  refE : Option ℕ

/-- `control` (dicrete_action_controller.py 62–86): one number, or one for each circuit -/
def DiscAction.control (c : DiscAction) (st : Disc K × Disc K) (state reference : ℕ → K) : (Disc K × Disc K) × List ℤ :=
  let a := st.1.control (state c.refState) (reference c.refIdx)
  match c.refE with
  | none => ((a.1, st.2), [a.2])
  | some r =>
    let e := st.2.control (state c.iIdx) (reference r)
    ((a.1, e.1), [a.2, e.2])

/-- `reset` (dicrete_action_controller.py 93–97): `self.control_e` is a truth value and has no `reset` -/
def DiscAction.reset (c : DiscAction) (st : Disc K × Disc K) : Call (Disc K × Disc K) Unit :=
  ((st.1.reset, st.2), if c.refE.isSome then .error .attribute else .ok ())

/-! ## Cascades for DC motors -/

/-- one stage of a cascade -/
inductive Stage (K : Type)
  | cont (c : Cont K)
  | disc (c : Disc K)

/-- `control` of a stage -/
def Stage.control (s : Stage K) (state reference : K) : Stage K × K :=
  match s with
  | .cont c => (.cont (c.control state reference).1, (c.control state reference).2)
  | .disc c => (.disc (c.control state reference).1, ((c.control state reference).2 : K))

/-- `reset` of a stage -/
def Stage.reset : Stage K → Stage K
  | .cont c => .cont c.reset
  | .disc c => .disc c.reset

/-- One pass of the loop over the high-level stages (cascaded_controller.py 141–164): the reference for the stage below.  `lo`, `hi` are
`state_limit_low`, `state_limit_high` of the state that the stage below controls, `lower` is the value of this state (`state_idx`, lines
148 and 151), `state` the one of the state with the reference (line 157), which is compared with `first = reference[0]`. -/
def Stage.outer (s : Stage K) (lo hi lower state reference first : K) : Stage K × K :=
  match s with
  | .cont c =>
    let y := c.control lower reference
    ((.cont (guarded lo hi y.2 y.1 state first).1), (guarded lo hi y.2 y.1 state first).2)
  | .disc c => (.disc (c.control lower reference).1, ((c.control lower reference).2 : K))

/-- Attributes of a `CascadedController` that never change (cascaded_controller.py 18–123), for two stages, the number that
`automated_controller_design` uses (classic_controllers.py 184–195).  `refState` is the index of the state with the reference, `first` the
position of its reference, `iLo`, `iHi` are the limits of the armature current, `psi` is what the parameter `psie_e` says, 0 without it,
`l` is `l_e_prime`, 0 without it. -/
structure Cascade (K : Type) where
  refState : ℕ
  refIdx : ℕ
  iaIdx : ℕ
  ieIdx : ℕ
  omegaIdx : ℕ
  lo : K
  hi : K
  iLo : K
  iHi : K
  psi : K
  l : K
  nomOmega : K
  nomI : K
  nomU : K

/-- `feedforward` (cascaded_controller.py 224–230); `eps` is `1e-6` -/
def Cascade.feedforward (c : Cascade K) (eps : K) (state : ℕ → K) : K :=
  let psi := max (if c.psi ≠ 0 then c.psi else c.l * state c.ieIdx * c.nomI) eps
  state c.omegaIdx * c.nomOmega * psi / c.nomU

/-- Lines 184–196 of cascaded_controller.py: the action for the armature.  A continuous stage is supported by the EMF compensation. -/
def Cascade.inner (c : Cascade K) (eps : K) (s : Stage K) (state : ℕ → K) (ref : K) : Stage K × K :=
  match s with
  | .cont x =>
    let y := x.control (state c.iaIdx) ref
    let z := y.2 + c.feedforward eps state
    (.cont (guarded c.lo c.hi z y.1 (state c.iaIdx) ref).1, (guarded c.lo c.hi z y.1 (state c.iaIdx) ref).2)
  | .disc x => (.disc (x.control (state c.iaIdx) ref).1, ((x.control (state c.iaIdx) ref).2 : K))

/-- `control` (cascaded_controller.py 125–222) for motors that are not externally excited; the state consists of the inner and the outer
stage.  The action of a discrete inner stage is the number itself. -/
def Cascade.control (c : Cascade K) (eps : K) (st : Stage K × Stage K) (state reference : ℕ → K) : (Stage K × Stage K) × K :=
  let o := st.2.outer c.iLo c.iHi (state c.iaIdx) (state c.refState) (reference c.refIdx) (reference 0)
  let i := c.inner eps st.1 state o.2
  ((i.1, o.1), i.2)

/-- `reset` (cascaded_controller.py 236–241) -/
def cascadeReset (st : Stage K × Stage K) : Stage K × Stage K := (st.1.reset, st.2.reset)

/-! ## Cascades for the externally excited motor -/

/-- What the exciting circuit adds (cascaded_controller.py 68–94, 166–182, 198–211): indices, limits of the torque reference, limits of
the currents and the torque, `r_a`, `r_e`, `u_e`; `refE` is `ref_e_idx`, 0 also for `False`; `speed` tells whether the speed is
controlled. -/
structure Excited (K : Type) where
  speed : Bool
  torqueIdx : ℕ
  tLo : K
  tHi : K
  torqueLimit : K
  iaLimit : K
  ieLimit : K
  iaLow : K
  iaHigh : K
  ieLow : K
  ieHigh : K
  ra : K
  re : K
  lo : K
  hi : K
  refE : ℕ

/-- A number of the code: `none` is `nan`. -/
abbrev Num (K : Type) := Option K

/-- `np.clip` keeps `nan` -/
def clipNum (x : Num K) (lo hi : K) : Num K := x.map fun y => clip y lo hi

/-- "Calculate optimal i_a and i_e" (cascaded_controller.py 166–182): the references of armature and exciting current for a reference of
the torque.  `root x` is `np.power(x, 1/4)`; dividing by zero is `nan` for 0 and infinite, that is: clipped to a limit, otherwise. -/
def Excited.currents (x : Excited K) (l : K) (root : K → K) (torque : K) : Num K × K :=
  let t := torque * x.torqueLimit
  let ie := clip (root (x.ra * t ^ 2 / (x.re * l ^ 2))) (x.ieLow * x.ieLimit) (x.ieHigh * x.ieLimit)
  let ia : Num K :=
    if l * ie ≠ 0 then some (clip (t / (l * ie)) (x.iaLow * x.iaLimit) (x.iaHigh * x.iaLimit))
    else if t = 0 then none
    else if 0 < t then some (x.iaHigh * x.iaLimit)
    else some (x.iaLow * x.iaLimit)
  (ia.map (· / x.iaLimit), ie / x.ieLimit)

/-- Lines 184–196 with a reference that may be `nan`: comparisons with `nan` are false, so nothing is integrated and clipping keeps it.
A discrete stage falls through to its last branch (on-off: it keeps its action; three-point: neutral).  The derivative part of a PID
controller, which would keep `nan` for ever, keeps its old error here. -/
def Cascade.innerNum (c : Cascade K) (eps : K) (s : Stage K) (state : ℕ → K) (ref : Num K) : Stage K × Num K :=
  match ref with
  | some r => ((c.inner eps s state r).1, some (c.inner eps s state r).2)
  | none =>
    match s with
    | .cont x => (.cont x, none)
    | .disc (.onOff x) => (.disc (.onOff x), some (x.action : K))
    | .disc (.three x) => (.disc (.three { x with action := 0, recent := 0 }), some 0)

/-- `control` (cascaded_controller.py 125–222) for externally excited motors; the state consists of the inner, the outer and the exciting
stage.  The outer stage is used for speed control only (lines 141–145: the range is empty otherwise).  After the exciting action has been
added, both actions are clipped to the limits of the exciting one (lines 204–209); the stage of the exciting circuit is of the same kind
as the inner one. -/
def Excited.control (c : Cascade K) (x : Excited K) (eps : K) (root : K → K) (st : Stage K × Stage K × Stage K)
    (state reference : ℕ → K) : (Stage K × Stage K × Stage K) × List (Num K) :=
  let o := if x.speed then st.2.1.outer x.tLo x.tHi (state x.torqueIdx) (state c.refState) (reference c.refIdx) (reference 0)
    else (st.2.1, reference c.refIdx)
  let r := x.currents c.l root o.2
  let i := c.innerNum eps st.1 state r.1
  let re := if x.refE = 0 then r.2 else reference x.refE
  match st.2.2 with
  | .cont e =>
    let y := e.control (state c.ieIdx) re
    let g := guarded x.lo x.hi y.2 y.1 (state c.ieIdx) re
    ((i.1, o.1, .cont g.1), [clipNum i.2 x.lo x.hi, some (clip y.2 x.lo x.hi)])
  | .disc e =>
    let y := e.control (state c.ieIdx) re
    ((i.1, o.1, .disc y.1), [i.2, some (y.2 : K)])

/-- `reset` (cascaded_controller.py 236–241) -/
def excitedReset (st : Stage K × Stage K × Stage K) : Stage K × Stage K × Stage K := (st.1.reset, st.2.1.reset, st.2.2.reset)

end GEM.Classic
