import Verif.Model.References

/-!
# `RampingLimitMargin`  (`src/gym_electric_motor/callbacks.py` 11–125)

The callback, together with the sub-episoded generators it writes to.
-/

namespace GEM.Cb

open GEM GEM.Refs

/-- `update_time` -/
inductive Mode | step | episode
deriving DecidableEq

/-- The attributes of the callback; `counter` is `_step` resp. `_episode`. -/
structure Ramp (K : Type) where
  margin : K × K
  maximum : K × K
  stepSize : K
  mode : Mode
  freq : ℤ
  counter : ℤ
deriving DecidableEq

variable {K : Type} [LinearOrder K]

/-- `__init__` (lines 27–76); `mode = none` is any other string. -/
def Ramp.init [One K] [Neg K] (initial maximum : K × K) (stepSize : K) (mode : Option Mode) (freq : ℤ) :
    Except Err (Ramp K) :=
  match mode with
  | none => .error .assertion
  | some mode =>
    if initial.1 < initial.2 ∧ maximum.1 < maximum.2 ∧ -1 ≤ initial.1 ∧ -1 ≤ maximum.1 ∧ initial.2 ≤ 1 ∧ maximum.2 ≤ 1
    then .ok ⟨initial, maximum, stepSize, mode, freq, 0⟩
    else .error .assertion

/-- The reference generator of the environment, as far as `set_env` distinguishes: the sub-generators of a
`SwitchedReferenceGenerator` or a single generator, and whether each is a `SubepisodedReferenceGenerator`; of those only
`_limit_margin` is looked at. -/
structure Target (K : Type) where
  isSub : Bool
  margin : K × K

/-- `_limit_margin` of every generator is overwritten. -/
def write (m : K × K) (gs : List (Target K)) : List (Target K) := gs.map (fun g => { g with margin := m })

/-- `set_env` (lines 78–95) -/
def setEnv (c : Ramp K) (gs : List (Target K)) : Except Err (List (Target K)) :=
  if gs.all (·.isSub) then .ok (write c.margin gs) else .error .assertion

/-- the new margin (lines 117–125) -/
def grow [Add K] [Sub K] (c : Ramp K) : K × K :=
  (if c.maximum.1 < c.margin.1 - c.stepSize then c.margin.1 - c.stepSize else c.maximum.1,
   if c.margin.2 + c.stepSize < c.maximum.2 then c.margin.2 + c.stepSize else c.maximum.2)

/-- `_update_limit_margin` (lines 113–131) -/
def update [Add K] [Sub K] (c : Ramp K) (gs : List (Target K)) : Ramp K × List (Target K) :=
  if c.margin ≠ c.maximum then ({ c with margin := grow c }, write (grow c) gs) else (c, gs)

/-- The two calls of the environment the callback reacts to. -/
inductive Event | stepEnd | resetEnd
deriving DecidableEq

/-- Does `update_time` name this event? -/
def Mode.counts : Mode → Event → Bool
  | .step, .stepEnd => true
  | .episode, .resetEnd => true
  | _, _ => false

/-- `on_step_end`, `on_reset_end` (lines 97–111); `x % 0` raises a ZeroDivisionError. -/
def onEvent [Add K] [Sub K] (e : Event) (c : Ramp K) (gs : List (Target K)) : Call (Ramp K × List (Target K)) Unit :=
  if c.mode.counts e then
    let c := { c with counter := c.counter + 1 }
    if c.freq = 0 then ((c, gs), .error .zeroDiv)
    else if Int.fmod c.counter c.freq = 0 then (update { c with counter := 0 } gs, .ok ())
    else ((c, gs), .ok ())
  else ((c, gs), .ok ())

/-- A history of events; an exception ends it. -/
def events [Add K] [Sub K] : List Event → Ramp K × List (Target K) → Call (Ramp K × List (Target K)) Unit
  | [], s => (s, .ok ())
  | e :: es, s => (onEvent e s.1 s.2).bind (fun s _ => events es s)

end GEM.Cb
