import Mathlib.Data.Real.Basic
import Mathlib.Analysis.SpecialFunctions.Pow.Real
import Verif.Model.Utils

/-!
# `reward_functions/weighted_sum_of_errors.py`

Real arithmetic, with the results of the IEEE arithmetic that are no numbers (`Fl`) where a documented argument leads to
them: the violation reward for `gamma = 1` and weights that are normed although their sum is zero.  Not modelled: state
lengths 0 and negative powers at error 0 (`inf`/`nan` in numpy, other values here), and the warning about weights that sum
to zero.
-/

namespace GEM.Reward

open GEM GEM.Utils

/-- A floating point number: a real number, an infinity or nan. -/
inductive Fl where
  | fin (x : ℝ)
  | inf (neg : Bool)
  | nan

/-- The `bias` argument. -/
inductive Bias where
  | num (b : ℝ)
  | positive

/-- `_reward_weights`: the argument before `set_modules`, the array afterwards; `nans` is the result of norming weights
whose sum is zero: every entry is nan or infinite, with both signs if there is an infinite one. -/
inductive Weights (N : Type) where
  | arg (a : Option (Input N ℝ))
  | arr (w : List ℝ)
  | nans

/-- The attributes of `WeightedSumOfErrors` (lines 80–86) and `reward_range`, `None` before `set_modules`. -/
structure Wse (N : Type) where
  power : Input N ℝ
  weights : Weights N
  stateLength : Option (List ℝ)
  normed : Bool
  gamma : ℝ
  bias : Bias
  violation : Option Fl
  range : Option (ℝ × ℝ)

/-- `__init__` (lines 48–86). -/
def Wse.init {N : Type} (weights : Option (Input N ℝ)) (normed : Bool) (violation : Option ℝ) (gamma : ℝ)
    (power : Input N ℝ) (bias : Bias) : Wse N :=
  ⟨power, .arg weights, none, normed, gamma, bias, violation.map .fin, none⟩

/-- What the reward function is told about the other modules: state names, bounds of the state space, referenced states. -/
structure Modules (N : Type) where
  names : List N
  low : List ℝ
  high : List ℝ
  referenced : List Bool

variable {N : Type} [DecidableEq N]

/-- `np.array(state_names)[referenced_states]` -/
def selected (names : List N) (mask : List Bool) : List N := ((names.zip mask).filter (fun p => p.2)).map Prod.fst

/-- `dict.fromkeys(l, 1 / len(l))` -/
noncomputable def uniformDict (l : List N) : Input N ℝ := .dict (l.map (fun n => (n, 1 / (l.length : ℝ))))

/-- The default weights (lines 95–108): over the referenced states if there are any, else over all. -/
noncomputable def defaultWeights (m : Modules N) : Input N ℝ :=
  if m.referenced.any id then uniformDict (selected m.names m.referenced) else uniformDict m.names

/-- `self._reward_weights = set_state_array(reward_weights, state_names)` (lines 95–111); `nans` stays an array of nans. -/
noncomputable def weightArray (lower : N → N) (m : Modules N) : Weights N → Except Err (Option (List ℝ))
  | .arg none => (setStateArray lower m.names (defaultWeights m)).map some
  | .arg (some a) => (setStateArray lower m.names a).map some
  | .arr w => (setStateArray lower m.names (.ndarray w)).map some
  | .nans => .ok none

/-- `self._reward_weights / rw_sum` (line 118) -/
noncomputable def normWeights (w : List ℝ) : Weights N := if w.sum = 0 then .nans else .arr (w.map (· / w.sum))

/-- The value `'positive'` stands for (lines 116–117, 121–122). -/
def Bias.value (s : ℝ) : Bias → ℝ
  | .num b => b
  | .positive => s

/-- `reward_range[0] / (1.0 - gamma)` for `gamma = 1` in numpy arithmetic, bounded above by 0: `min` keeps a first argument
nan. -/
noncomputable def overZero (r : ℝ) : Fl := if r < 0 then .inf true else if r = 0 then .nan else .fin 0

/-- `min(reward_range[0] / (1.0 - gamma), 0)` (lines 124–125).  With normed weights `reward_range[0]` is a python number,
whose division by zero raises; otherwise it is a numpy number. -/
noncomputable def defaultViolation (normed : Bool) (r gamma : ℝ) : Except Err Fl :=
  if 1 - gamma = 0 then (if normed then .error .zeroDiv else .ok (overZero r))
  else .ok (.fin (min (r / (1 - gamma)) 0))

/-- line 124: a violation reward that is already there is kept -/
noncomputable def violationOf (o : Wse N) (r : ℝ) : Except Err Fl :=
  match o.violation with
  | some v => .ok v
  | none => defaultViolation o.normed r o.gamma

/-- the rest of `set_modules` (lines 114–125) for a weight array of numbers -/
noncomputable def finish (o : Wse N) (w : List ℝ) : Except Err (Wse N) :=
  let b := o.bias.value (if o.normed then 1 else w.sum)
  let r := (if o.normed then -1 + b else -w.sum + b, b)
  (violationOf o r.1).map (fun v =>
  { o with
    weights := if o.normed then normWeights w else .arr w
    bias := .num b
    range := some r
    violation := some v })

/-- `set_modules` (lines 88–125).  The object that an exception leaves behind is not modelled.  An array of nans can only
be there when `set_modules` is called again on an object with normed weights; it then has its range and violation reward. -/
noncomputable def setModules (lower : N → N) (o : Wse N) (m : Modules N) : Except Err (Wse N) :=
  match setStateArray lower m.names o.power with
  | .error e => .error e
  | .ok n =>
    match weightArray lower m o.weights with
    | .error e => .error e
    | .ok ws =>
      let o := { o with power := .ndarray n, stateLength := some (List.zipWith (· - ·) m.high m.low) }
      match ws with
      | none => .ok o
      | some w => finish o w

/-- one summand: `w * (abs(s - r) / l) ** n` -/
noncomputable def term (w n l s r : ℝ) : ℝ := w * (|s - r| / l) ^ n

/-- the array of summands (arrays of equal length) -/
noncomputable def terms : List ℝ → List ℝ → List ℝ → List ℝ → List ℝ → List ℝ
  | w :: ws, n :: ns, l :: ls, s :: ss, r :: rs => term w n l s r :: terms ws ns ls ss rs
  | _, _, _, _, _ => []

/-- `_wse_reward` (lines 130–131).  Before `set_modules` the division by `None` raises a TypeError.  Arrays of different
lengths raise a ValueError. -/
noncomputable def wse (o : Wse N) (state reference : List ℝ) : Except Err Fl :=
  match o.stateLength with
  | none => .error .type
  | some l =>
    match o.power, o.weights, o.bias with
    | .ndarray n, .arr w, .num b =>
      if state.length = l.length ∧ reference.length = l.length ∧ n.length = l.length ∧ w.length = l.length then
        .ok (.fin (-(terms w n l state reference).sum + b))
      else .error .value
    | .ndarray _, .nans, .num _ => .ok .nan
    | _, _, _ => .error .type

/-- `(1.0 - d) * x + d * v` -/
noncomputable def mix (d : ℝ) : Fl → Fl → Fl
  | .fin x, .fin v => .fin ((1 - d) * x + d * v)
  | .fin _, .inf neg => if d = 0 then .nan else if 0 < d then .inf neg else .inf (!neg)
  | _, _ => .nan

/-- `reward` (lines 127–128); `None` as violation reward cannot be multiplied -/
noncomputable def reward (o : Wse N) (state reference : List ℝ) (d : ℝ) : Except Err Fl :=
  match wse o state reference with
  | .error e => .error e
  | .ok x =>
    match o.violation with
    | none => .error .type
    | some v => .ok (mix d x v)

end GEM.Reward
