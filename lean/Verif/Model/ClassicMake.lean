import Verif.Model.Registry
import Verif.Model.Loop

/-!
# The factory and the loops of the classic controllers  (`examples/classic_controllers`)

`Controller.make(environment)` of `classic_controllers.py` with and without `stages`, for the registered environments with their default
arguments (`Model/Registry.lean`), as far as it decides which controller is made, with which stages and gains, and which exception is
raised.  File names without directory are those under `examples/classic_controllers/controllers`, `classic_controllers.py` is the one
under `examples/classic_controllers`.

Left out: the plots (`external_plot`, `external_ref_plots`), the values of the
gains (only the formula that gives them), stages that a user hands over in other forms than `Given`, the tables of the torque conversion (`Model/ClassicTorque.lean`; numpy's floating point
arithmetic does not raise).  The referenced states are those of the default reference generators, so `reference_states`
(classic_controllers.py 117–133) is `refStates`; every default environment has a `MotorDashboard`, so `get_visualization`
(classic_controllers.py 95–115) adds two keyword arguments that all constructors accept.
-/

namespace GEM.ClassicMake

open GEM GEM.Registry

/-- The `environment` handed over: an object of the environment class (`env.unwrapped`); what `gem.make` returns with gymnasium
before 1.0, a wrapper that forwards public attributes; what it returns with gymnasium from 1.0 on, a wrapper that does not. -/
inductive Handle
  | bare | forwarding | opaque
deriving DecidableEq

/-- `torque_control` (cascaded_foc_controller.py 29), `'interpolate'` by default -/
inductive Conversion
  | interpolate | analytical | online
deriving DecidableEq

/-- What `make` depends on besides the environment class; `npComplex`: whether numpy still has `np.complex` (before 1.24). -/
structure Setting where
  handle : Handle
  npComplex : Bool
  conversion : Conversion
deriving DecidableEq

/-- `environment.physical_system`, `environment.state_names` -/
def attr (s : Setting) : Except Err Unit := if s.handle = .opaque then .error .attribute else .ok ()

/-- `np.complex` -/
def complexOf (s : Setting) : Except Err Unit := if s.npComplex then .ok () else .error .attribute

/-- base controllers: the keys with three entries of `_controllers` (classic_controllers.py 57–73) -/
inductive Ctl
  | pi | pid | onOff | threePoint
deriving DecidableEq

/-- `_controllers[…][1] == ContinuousController` (classic_controllers.py 57–73) -/
def Ctl.continuous : Ctl → Bool
  | .pi | .pid => true
  | .onOff | .threePoint => false

/-- the formulas of `automated_gain` (classic_controllers.py) -/
inductive Gain
  /-- armature current, 382–383, 416–417, 444–445 -/
  | armature
  /-- excitation current, 364–365 -/
  | excitation
  /-- speed of direct current motors, 424–431, 452–459 -/
  | speedDc
  /-- current in d direction, 474–475, 502–503 -/
  | d
  /-- current in q direction, 477–478, 505–506 -/
  | q
  /-- speed of synchronous motors, 526–529 -/
  | speedSync
  /-- speed of synchronous motors with finite actions, 548–554 -/
  | speedFinite
  /-- currents of induction motors, 564–570, 589–595 -/
  | induction
  /-- speed of induction motors, 614–617 -/
  | speedInduction
deriving DecidableEq

/-- a stage: the dictionary with `controller_type` and the gains; without gains the base controller uses its own defaults -/
structure Stage where
  type : Ctl
  gain : Option Gain := none
deriving DecidableEq

/-- entries of the list of stages -/
inductive Item
  | dict (s : Stage)
  | list (l : List Stage)
deriving DecidableEq

/-- `stage["p_gain"] = stage.get("p_gain", p_gain)` and the same for `i_gain` -/
def Stage.tune (g : Gain) (s : Stage) : Stage := { s with gain := s.gain <|> some g }

/-- keys of `_controllers` (classic_controllers.py 57–79) -/
inductive Key
  | base (c : Ctl)
  | cascaded | foc | cascadedFoc | imFoc | imCascadedFoc
deriving DecidableEq

/-- type and size of the action space -/
inductive Space
  | box (n : ℕ)
  | discrete
  | multi (n : ℕ)
deriving DecidableEq

/-- actions of a continuous converter (converters.py: `ContFourQuadrantConverter`, `ContB6BridgeConverter`) -/
def outputs : Bridge → ℕ
  | .four => 1
  | .b6 => 3

/-- action space of an environment -/
def space (d : Defaults) : Space :=
  match d.action, d.converter with
  | .continuous, .single k => .box (outputs k)
  | .continuous, .multi ks => .box (ks.map outputs).sum
  | .finite, .single _ => .discrete
  | .finite, .multi ks => .multi ks.length

/-- `type(environment.action_space) is Box` -/
def Space.isBox : Space → Bool
  | .box _ => true
  | _ => false

/-- the referenced states (classic_controllers.py 117–133) -/
def refStates (d : Defaults) : List String := d.references.list.map (·.state)

/-- `isinstance(…, DcMotorSystem)` -/
def isDc : MotorType → Bool
  | .permExDc | .extExDc | .seriesDc | .shuntDc => true
  | _ => false

/-- `isinstance(environment.physical_system, DcMotorSystem)`: the physical system itself, without wrappers around it.  The classes of the
shunt motors add one (`CurrentSumProcessor`). -/
def plainDc (d : Defaults) : Bool := isDc d.motor && d.currentSums.isEmpty

/-- `isinstance(…, SynchronousMotorSystem)`, which includes the system of the EESM (physical_systems.py 564) -/
def isSync : MotorType → Bool
  | .pmsm | .synRm | .eesm => true
  | _ => false

/-! ## `automated_controller_design` -/

/-- the two stages of a cascade, or the stage of the current (classic_controllers.py 194–212) -/
def designDc (d : Defaults) : Except Err (Key × List Stage) :=
  if "omega" ∈ refStates d ∨ "torque" ∈ refStates d then
    .ok (.cascaded, [⟨if (space d).isBox then .pi else .threePoint, none⟩, ⟨.pi, none⟩])
  else if "i" ∈ refStates d ∨ "i_a" ∈ refStates d then
    let c := if (space d).isBox then Ctl.pi else .threePoint
    .ok (.base c, [⟨c, none⟩])
  else .error .generic

/-- stages of three phase motors (classic_controllers.py 221–253, 259–292): `one` for current, `two` for torque and speed control -/
def designAc (d : Defaults) (one two : Key) : Except Err (Key × List Item) :=
  if "i_sq" ∈ refStates d ∨ "torque" ∈ refStates d then
    .ok (if "i_sq" ∈ refStates d then one else two,
      if space d = .discrete then [.list [⟨.onOff, none⟩], .list [⟨.onOff, none⟩], .list [⟨.onOff, none⟩]]
      else [.list [⟨.pi, none⟩, ⟨.pi, none⟩]])
  else if "omega" ∈ refStates d then
    .ok (two,
      if space d = .discrete then [.list [⟨.onOff, none⟩], .list [⟨.onOff, none⟩], .list [⟨.onOff, none⟩], .list [⟨.pi, none⟩]]
      else [.list [⟨.pi, none⟩, ⟨.pi, none⟩], .list [⟨.pi, none⟩]])
  else .error .generic

/-- `automated_controller_design` (classic_controllers.py 186–296); `.generic` is the `UnboundLocalError` of `controller_type` -/
def design (s : Setting) (d : Defaults) : Except Err (Key × List Item) :=
  if isDc d.motor then do
    let (key, stages) ← designDc d
    if d.motor = .extExDc then
      .ok (key, [.list stages, .list [⟨if (space d).isBox then .pi else .threePoint, none⟩]])
    else .ok (key, stages.map .dict)
  else if isSync d.motor then designAc d .foc .cascadedFoc
  else do
    attr s
    designAc d .imFoc .imCascadedFoc

/-! ## `automated_gain` -/

/-- `l[i]` -/
def nth {α : Type} (l : List α) (i : ℕ) : Except Err α :=
  match l[i]? with
  | some x => .ok x
  | none => .error .index

/-- `stages[i][j]` as a stage -/
def inner (stages : List Item) (i j : ℕ) : Except Err Stage := do
  match ← nth stages i with
  | .dict _ => .error .key
  | .list l => nth l j

/-- `stages[i][j].update(gains)` -/
def tuneInner (g : Gain) (i j : ℕ) (stages : List Item) : List Item :=
  stages.modify i fun
    | .list l => .list (l.modify j (Stage.tune g))
    | x => x

/-- an entry of the stages of a cascade (classic_controllers.py 411–465): the first one gets the gains of the current, the second one
those of the speed -/
def tuneCascade (i : ℕ) : Item → Except Err Item
  | .list l => do
    let h ← nth l 0
    .ok (if h.type.continuous then .list (l.modify 0 (Stage.tune (if i = 0 then .armature else .speedDc))) else .list l)
  | .dict h => .ok (.dict (if h.type.continuous then h.tune (if i = 0 then .armature else .speedDc) else h))

/-- `for i in range(len(stages))` (classic_controllers.py 410) over the entries of `stages_a` -/
def cascadeAll (n : ℕ) (stagesA : List Item) : Except Err (List Item) :=
  if stagesA.length < n then .error .index
  else do
    let l ← (stagesA.take n).zipIdx.mapM fun x => tuneCascade x.2 x.1
    .ok (l ++ stagesA.drop n)

/-- `stages_a[0]["p_gain"] = stages_a[0].get(…)` (classic_controllers.py 382–386); a list has no `get` -/
def tuneFirst : List Item → Except Err (List Item)
  | [] => .error .index
  | .dict h :: l => .ok (.dict (h.tune .armature) :: l)
  | .list _ :: _ => .error .attribute

/-- the stages of `[stages_a, stages_e]` -/
def dicts : List Item → List Stage
  | .dict h :: l => h :: dicts l
  | _ => []

/-- `automated_gain` for direct current motors (classic_controllers.py 350–467).  `type(environment)` is one of the classes of the
externally excited motor only for the environment itself (lines 360, 373). -/
def gainDc (s : Setting) (d : Defaults) (key : Key) (stages : List Item) : Except Err (List Item) := do
  let split := s.handle = .bare ∧ d.motor = .extExDc
  let (stagesA, stagesE) ←
    if split then do
      match ← nth stages 0, ← nth stages 1 with
      | .list a, .list e =>
        if d.action = .continuous then do
          let _ ← nth e 0
          .ok (a.map Item.dict, some (e.modify 0 (Stage.tune .excitation)))
        else .ok (a.map Item.dict, some e)
      | _, _ => .error .type
    else .ok (stages, none)
  match key with
  | .base c =>
    if c.continuous then do
      attr s
      let a ← tuneFirst stagesA
      match stagesE with
      | some e => .ok [.list (dicts a), .list e]
      | none => .ok a
    else .ok stages
  | .cascaded => do
    let a ← cascadeAll stages.length stagesA
    match stagesE with
    | some e => .ok [.list (dicts a), .list e]
    | none => .ok a
  | _ => .ok stages

/-- `automated_gain` for current control of synchronous motors (classic_controllers.py 469–493) -/
def gainFoc (d : Defaults) (stages : List Item) : Except Err (List Item) :=
  if (space d).isBox then do
    let _ ← inner stages 0 0
    let q ← inner stages 0 1
    if "i_sq" ∈ refStates d ∧ q.type.continuous then .ok (tuneInner .q 0 1 (tuneInner .d 0 0 stages)) else .ok stages
  else .ok stages

/-- … for torque and speed control of synchronous motors (classic_controllers.py 495–561) -/
def gainCascadedFoc (d : Defaults) (stages : List Item) : Except Err (List Item) :=
  if (space d).isBox then do
    let _ ← inner stages 0 0
    let _ ← inner stages 0 1
    let tuned := tuneInner .q 0 1 (tuneInner .d 0 0 stages)
    if "torque" ∈ refStates d then .ok (tuned.take 1)
    else do
      let o ← inner stages 1 0
      if o.type.continuous then .ok (tuneInner .speedSync 1 0 (tuned.take 2)) else .ok (tuned.take 1)
  else if "omega" ∈ refStates d then do
    let o ← inner stages 3 0
    if o.type.continuous then .ok (tuneInner .speedFinite 3 0 stages) else .ok stages
  else .ok stages

/-- … for induction motors (classic_controllers.py 563–583; 585–626 with an outer stage) -/
def gainIm (d : Defaults) (outer : Bool) (stages : List Item) : Except Err (List Item) := do
  if outer = true ∧ "torque" ∉ refStates d then do
    let _ ← nth stages 1
  let _ ← inner stages 0 0
  let _ ← inner stages 0 1
  let tuned := tuneInner .induction 0 1 (tuneInner .induction 0 0 stages)
  if outer = true ∧ "torque" ∉ refStates d then do
    let o ← inner stages 1 0
    if o.type.continuous then .ok (tuneInner .speedInduction 1 0 (tuned.take 2)) else .ok tuned
  else .ok tuned

/-- `automated_gain` (classic_controllers.py 298–628); `environment.physical_system` is needed for all motors that are no direct
current motors (line 326) -/
def gain (s : Setting) (d : Defaults) (key : Key) (stages : List Item) : Except Err (List Item) :=
  if isDc d.motor then gainDc s d key stages
  else do
    attr s
    match key with
    | .foc => gainFoc d stages
    | .cascadedFoc => gainCascadedFoc d stages
    | .imFoc => gainIm d false stages
    | .imCascadedFoc => gainIm d true stages
    | _ => .ok stages

/-! ## The constructors -/

/-- `stages[i]["controller_type"]` -/
def outer (stages : List Item) (i : ℕ) : Except Err Stage := do
  match ← nth stages i with
  | .dict h => .ok h
  | .list _ => .error .type

/-- `assert` -/
def check (p : Bool) : Except Err Unit := if p then .ok () else .error .assertion

/-- `np.where(ref_states == name)[0][0]` -/
def position (d : Defaults) (name : String) : Except Err Unit := if name ∈ refStates d then .ok () else .error .index

/-- `ContinuousActionController.__init__` (continuous_action_controller.py 14–90) -/
def newContinuousAction (s : Setting) (d : Defaults) (stages : List Item) : Except Err Unit := do
  check (space d).isBox
  attr s
  check (plainDc d)
  if d.motor = .extExDc then do
    check (stages.length == 2)
    check (refStates d |>.contains "i_e")
    let _ ← inner stages 1 0
    let _ ← inner stages 0 0
  else do
    if "i_e" ∉ refStates d then check ((refStates d).length ≤ 1)
    let _ ← outer stages 0

/-- `DiscreteActionController.__init__` (dicrete_action_controller.py 13–60).  The controller of the armature current is made without
`_controllers` (lines 55–57). -/
def newDiscreteAction (s : Setting) (d : Defaults) (stages : List Item) : Except Err Unit := do
  check (!(space d).isBox)
  attr s
  check (plainDc d)
  if d.motor = .extExDc then do
    check (stages.length == 2)
    check (refStates d |>.contains "i_e")
    let _ ← inner stages 1 0
    let _ ← inner stages 0 0
    .error .type
  else do
    check ((refStates d).length ≤ 1)
    let _ ← outer stages 0

/-- `CascadedController.__init__` (cascaded_controller.py 18–121): all attributes by way of `environment.unwrapped` -/
def newCascaded (d : Defaults) (stages : List Item) : Except Err Unit := do
  let stages ←
    if d.motor = .extExDc then do
      check (stages.length == 2)
      let _ ← inner stages 1 0
      match ← nth stages 0 with
      | .list l => .ok (l.map Item.dict)
      | .dict _ => .error .type
    else do
      check ((refStates d).length ≤ 1)
      .ok stages
  let _ ← (List.range stages.length).mapM (outer stages)
  let first ← outer stages 0
  check ((space d).isBox || !first.type.continuous)
  check (!(space d).isBox || first.type.continuous)

/-- `FieldOrientedController.__init__` (foc_controller.py 18–93).  No converter has an attribute `_dead_time` (line 59), so the rest is
never executed. -/
def newFoc (s : Setting) (d : Defaults) : Except Err Unit := do
  attr s
  check (isSync d.motor)
  position d "i_sd"
  position d "i_sq"
  .error .attribute

/-- `TorqueToCurrentConversion.__init__` (torque_to_current_conversion.py 24–313): the interpolated tables need `np.complex` (line 298) -/
def newConversion (s : Setting) : Except Err Unit :=
  if s.conversion = .interpolate then complexOf s else .ok ()

/-- `CascadedFieldOrientedController.__init__` (cascaded_foc_controller.py 18–151).  The outer stage for finite actions is made without
`_controllers` (lines 115–117). -/
def newCascadedFoc (s : Setting) (d : Defaults) (stages : List Item) : Except Err Unit := do
  attr s
  if "torque" ∈ refStates d ∨ "omega" ∈ refStates d then newConversion s
  if (space d).isBox then do
    match ← nth stages 0 with
    | .list l => check (l.length == 2)
    | .dict _ => .error .key
    if "omega" ∈ refStates d then do
      let _ ← nth stages 1
  else do
    if "omega" ∈ refStates d then do
      check (stages.length == 4)
      .error .type
    else check (stages.length == 3)
    let _ ← inner stages 0 0
    let _ ← inner stages 1 0
    let _ ← inner stages 2 0

/-- `InductionMotorFieldOrientedController.__init__` (induction_motor_foc.py 15–89); the `FluxObserver` needs `np.complex`
(flux_observer.py 24); without continuous actions there are no controllers of the currents -/
def newImFoc (s : Setting) (d : Defaults) (stages : List Item) : Except Err Unit := do
  attr s
  complexOf s
  position d "i_sd"
  position d "i_sq"
  if (space d).isBox then
    match ← nth stages 0 with
    | .list l => check (l.length == 2)
    | .dict _ => .error .key

/-- `InductionMotorCascadedFieldOrientedController.__init__` (induction_motor_cascaded_foc.py 21–144), with the torque conversion, which
reads the gains of the second stage (induction_motor_torque_to_current_conversion.py 50) -/
def newImCascadedFoc (s : Setting) (d : Defaults) (stages : List Item) : Except Err Unit := do
  attr s
  complexOf s
  if "torque" ∈ refStates d ∨ "omega" ∈ refStates d then do
    let q ← inner stages 0 1
    if q.gain = none then .error .key
  if (space d).isBox then do
    match ← nth stages 0 with
    | .list l => check (l.length == 2)
    | .dict _ => .error .key
    if "omega" ∈ refStates d then do
      let _ ← nth stages 1

/-- `_controllers[controller_type][0](environment, stages, …)` -/
def construct (s : Setting) (d : Defaults) (key : Key) (stages : List Item) : Except Err Unit :=
  match key with
  | .base c => if c.continuous then newContinuousAction s d stages else newDiscreteAction s d stages
  | .cascaded => newCascaded d stages
  | .foc => newFoc s d
  | .cascadedFoc => newCascadedFoc s d stages
  | .imFoc => newImFoc s d stages
  | .imCascadedFoc => newImCascadedFoc s d stages

/-- `Controller.make(environment)` (classic_controllers.py 80–93): class and stages of the controller -/
def make (s : Setting) (d : Defaults) : Except Err (Key × List Item) := do
  let (key, stages) ← design s d
  let stages ← gain s d key stages
  construct s d key stages
  .ok (key, stages)

/-! ## Stages that a user hands over -/

/-- forms of the argument `stages`: the name of a base controller, its dictionary, a list of dictionaries and lists of dictionaries -/
inductive Given
  | name (c : Ctl)
  | dict (h : Stage)
  | list (l : List Item)
deriving DecidableEq

/-- `find_controller_type` for direct current motors (classic_controllers.py 139–156) -/
def findDc : Given → Except Err (Key × List Item)
  | .name c => .ok (.base c, [.dict ⟨c, none⟩])
  | .dict h => .ok (.base h.type, [.dict h])
  | .list l =>
    if 1 < l.length then
      match l.head? with
      | some (.list k) => if 1 < k.length then .ok (.cascaded, l) else do
          let h ← nth k 0
          .ok (.base h.type, l)
      | _ => .ok (.cascaded, l)
    else do
      match ← nth l 0 with
      | .dict h => .ok (.base h.type, l)
      | .list _ => .error .type

/-- `len(stages[1])`; a dictionary with gains has three keys -/
def Item.length : Item → ℕ
  | .dict h => if h.gain = none then 1 else 3
  | .list l => l.length

/-- `find_controller_type` for three phase motors (classic_controllers.py 157–184) and lists of stages -/
def findAc (d : Defaults) (one two : Key) (l : List Item) : Key :=
  match l with
  | [_, x] => if x.length = 1 ∧ "i_sq" ∈ refStates d then one else two
  | _ => two

/-- `find_controller_type` (classic_controllers.py 135–186).  The first condition looks at the physical system with its wrappers, the others
at the innermost one; if none holds, `controller_type` has no value (`.generic`).  For three phase motors names and dictionaries are not
modelled (`.value`, which the code does not raise). -/
def find (s : Setting) (d : Defaults) (g : Given) : Except Err (Key × List Item) :=
  if plainDc d then findDc g
  else do
    attr s
    if isDc d.motor then .error .generic
    else match g with
      | .list l => .ok (if isSync d.motor then findAc d .foc .cascadedFoc l else findAc d .imFoc .imCascadedFoc l, l)
      | _ => .error .value

/-- `Controller.make(environment, stages)` (classic_controllers.py 83–87) -/
def makeGiven (s : Setting) (d : Defaults) (g : Given) : Except Err (Key × List Item) := do
  let (key, stages) ← find s d g
  let stages ← gain s d key stages
  construct s d key stages
  .ok (key, stages)

/-! ## What the controllers answer -/

/-- `np.clip(u_s_abc, action_space.low, action_space.high)` with three voltages: the shapes have to match -/
def clipThree : Space → Except Err Space
  | .box n => if n = 3 ∨ n = 1 then .ok (.box 3) else .error .value
  | _ => .error .attribute

/-- Kind and number of the values that `control` returns: continuous_action_controller.py 106–134, dicrete_action_controller.py 74–90,
cascaded_controller.py 123–217, cascaded_foc_controller.py 244–276 (three voltages or a number, limited by the bounds of the first
action), induction_motor_foc.py 117–146 (without continuous actions there is no `d_controller`),
induction_motor_cascaded_foc.py 193–237 (without continuous actions `action` has no value: `UnboundLocalError`).  What the values are
is in `Model/Classic.lean` and `Model/ClassicFoc.lean`. -/
def answer (d : Defaults) : Key → Except Err Space
  | .base _ | .cascaded =>
    .ok (match (space d).isBox, decide (d.motor = .extExDc) with
      | true, e => .box (if e then 2 else 1)
      | false, true => .multi 2
      | false, false => .discrete)
  | .foc | .cascadedFoc => .ok (if (space d).isBox then .box 3 else .discrete)
  | .imFoc => if (space d).isBox then clipThree (space d) else .error .attribute
  | .imCascadedFoc => if (space d).isBox then clipThree (space d) else .error .generic

/-! ## The loops of the examples -/

open GEM.Run in
/-- the body of the loop, `n` times (classic_controllers_dc_motor_example.py 63–68, the same in the other examples there): the
observation that `env.reset()` returns after an episode is dropped, `state` and `reference` stay those of the last step; the flag of
`envStep` is `terminated` -/
def exampleLoop {σ κ o a : Type} (p : Parts σ κ o a) : ℕ → σ → κ → o → List (Ev o)
  | 0, _, _, _ => []
  | n + 1, env, ctl, obs =>
    let c := p.control ctl obs
    let e := p.envStep env c.2
    if e.2.2 then
      let r := p.envReset e.1
      .step obs e.2.1 e.2.2 :: .envReset r.2 :: .ctlReset :: exampleLoop p n r.1 (p.ctlReset c.1) e.2.1
    else .step obs e.2.1 e.2.2 :: exampleLoop p n e.1 c.1 e.2.1

open GEM.Run in
/-- the loops of the examples (classic_controllers_dc_motor_example.py 61–68, classic_controllers_synch_motor_example.py 65–73,
classic_controllers_ind_motor_example.py 62–70): the controller has just been made -/
def example_ {σ κ o a : Type} (p : Parts σ κ o a) (n : ℕ) (env : σ) (ctl : κ) : List (Ev o) :=
  let r := p.envReset env
  .envReset r.2 :: exampleLoop p n r.1 ctl r.2

end GEM.ClassicMake
