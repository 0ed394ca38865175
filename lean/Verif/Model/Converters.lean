import Mathlib.Algebra.Order.Field.Basic
import Mathlib.Data.Finset.Sort
import Mathlib.Data.Sign.Basic
import Verif.Model.Basic

/-!
# Power electronic converters  (`src/gym_electric_motor/physical_systems/converters.py`)

Numbers are elements of a linearly ordered field `K`.  Discrete actions are natural numbers; negative or non-integer
actions, which `Discrete.contains` rejects in the same way as too large ones, are not representable.
-/

namespace GEM.Conv

variable {K : Type*} [Field K] [LinearOrder K] [IsStrictOrderedRing K]

/-- `sorted(list(set(times)))` (converters.py 364, 491, 602, 708, 835, 903). -/
def sortedSet (l : List K) : List K := l.toFinset.sort (· ≤ ·)

/-! ## Finite converters -/

/-- `FiniteOneQuadrantConverter` (converters.py 218–245, state from 35–43 and 192–201).
`_switching_pattern` is written but never read for this converter and is left out. -/
structure OneQC (K : Type*) where
  tau : K
  start : K
  action : ℕ

/-- converters.py 35–43, 199–201; `_reset_action = 0` (197). -/
def OneQC.new (tau : K) : OneQC K := ⟨tau, 0, 0⟩

/-- converters.py 203–207, 56–69, 99–111 with `action_space = Discrete(2)` (237). -/
def OneQC.setAction (c : OneQC K) (a : ℕ) (t : K) : Call (OneQC K) (List K) :=
  if a < 2 then ({ c with start := t, action := a }, .ok [t + c.tau])
  else (c, .error .assertion)

/-- converters.py 239–241. -/
def OneQC.convert (c : OneQC K) (i : List K) (_t : K) : Call (OneQC K) (List K) :=
  match i with
  | [] => (c, .error .index)
  | x :: _ => (c, .ok [if 0 ≤ x then (c.action : K) else 1])

/-- converters.py 243–245 (`i_out[0]` is only evaluated when the action is 1). -/
def OneQC.iSup (c : OneQC K) (i : List K) : Except Err K :=
  if c.action = 1 then (match i with | [] => .error .index | x :: _ => .ok x) else .ok 0

/-- converters.py 45–54. -/
def OneQC.reset (c : OneQC K) : OneQC K × List K := ({ c with action := 0, start := 0 }, [0])

/-- `FiniteTwoQuadrantConverter` (converters.py 248–310): a half bridge. Switching state 0: both switches open,
1: upper closed, 2: lower closed. -/
structure TwoQC (K : Type*) where
  tau : K
  /-- `_interlocking_time` -/
  il : K
  /-- `_action_start_time` -/
  start : K
  /-- `_current_action` -/
  action : ℕ
  /-- `_switching_pattern` -/
  pattern : List ℕ
  /-- `_switching_state` -/
  state : ℕ

/-- converters.py 35–43, 192–201: class-level `_switching_pattern = []`, `_switching_state = 0`. -/
def TwoQC.new (tau il : K) : TwoQC K := ⟨tau, il, 0, 0, [], 0⟩

/-- converters.py 203–207 (assert), 56–69 (`set_action`), 300–310 (`_set_switching_pattern`). -/
def TwoQC.setAction (c : TwoQC K) (a : ℕ) (t : K) : Call (TwoQC K) (List K) :=
  if a < 3 then
    if a = 0 ∨ c.state = 0 ∨ a = c.state ∨ c.il = 0 then
      ({ c with start := t, action := a, pattern := [a] }, .ok [t + c.tau])
    else
      ({ c with start := t, action := a, pattern := [0, a] }, .ok [t + c.il, t + c.tau])
  else (c, .error .assertion)

/-- converters.py 270–287. The switching state is updated before the output is computed. -/
def TwoQC.convert (c : TwoQC K) (i : List K) (t : K) : Call (TwoQC K) (List K) :=
  match (if t - c.tau / 1000 > c.start + c.il then c.pattern.getLast? else c.pattern.head?) with
  | none => (c, .error .index)
  | some s =>
    ({ c with state := s },
      match s with
      | 0 => (match i with | [] => .error .index | x :: _ => .ok [if x < 0 then 1 else 0])
      | 1 => .ok [1]
      | 2 => .ok [0]
      | _ => .error .generic)

/-- converters.py 289–298. -/
def TwoQC.iSup (c : TwoQC K) (i : List K) : Except Err K :=
  match c.state with
  | 0 => (match i with | [] => .error .index | x :: _ => .ok (if x < 0 then x else 0))
  | 1 => (match i with | [] => .error .index | x :: _ => .ok x)
  | 2 => .ok 0
  | _ => .error .generic

/-- converters.py 45–54 (inherited): neither `_switching_state` nor `_switching_pattern` is reset. -/
def TwoQC.reset (c : TwoQC K) : TwoQC K × List K := ({ c with action := 0, start := 0 }, [0])

/-- `FiniteFourQuadrantConverter` (converters.py 313–368). Its own action and start time are never read. -/
structure FourQC (K : Type*) where
  tau : K
  sub0 : TwoQC K
  sub1 : TwoQC K

/-- converters.py 336–342: both sub-converters get the same keyword arguments. -/
def FourQC.new (tau il : K) : FourQC K := ⟨tau, TwoQC.new tau il, TwoQC.new tau il⟩

/-- `action0 = [1, 1, 2, 2][action]` (converters.py 360), only evaluated for `action < 4`. -/
def fourAction0 : ℕ → ℕ
  | 0 => 1 | 1 => 1 | 2 => 2 | _ => 2

/-- `action1 = [1, 2, 1, 2][action]` (converters.py 361), only evaluated for `action < 4`. -/
def fourAction1 : ℕ → ℕ
  | 0 => 1 | 1 => 2 | 2 => 1 | _ => 2

/-- converters.py 354–364. -/
def FourQC.setAction (c : FourQC K) (a : ℕ) (t : K) : Call (FourQC K) (List K) :=
  if a < 4 then
    let r0 := c.sub0.setAction (fourAction0 a) t
    match r0.2 with
    | .error e => ({ c with sub0 := r0.1 }, .error e)
    | .ok t0 =>
      let r1 := c.sub1.setAction (fourAction1 a) t
      ({ c with sub0 := r0.1, sub1 := r1.1 },
        match r1.2 with
        | .error e => .error e
        | .ok t1 => .ok (sortedSet (t0 ++ t1)))
  else (c, .error .assertion)

/-- converters.py 350–352: the second half bridge sees the negated current. -/
def FourQC.convert (c : FourQC K) (i : List K) (t : K) : Call (FourQC K) (List K) :=
  let r0 := c.sub0.convert i t
  match r0.2, i with
  | .ok (u0 :: _), x :: _ =>
    let r1 := c.sub1.convert [-x] t
    ({ c with sub0 := r0.1, sub1 := r1.1 },
      match r1.2 with
      | .ok (u1 :: _) => .ok [u0 - u1]
      | .ok [] => .error .index
      | .error e => .error e)
  | .ok _, _ => ({ c with sub0 := r0.1 }, .error .index)
  | .error e, _ => ({ c with sub0 := r0.1 }, .error e)

/-- converters.py 366–368. -/
def FourQC.iSup (c : FourQC K) (i : List K) : Except Err K :=
  match c.sub0.iSup i, i with
  | .ok a, x :: _ => (match c.sub1.iSup [-x] with | .ok b => .ok (a + b) | .error e => .error e)
  | .ok _, [] => .error .index
  | .error e, _ => .error e

/-- converters.py 344–348. -/
def FourQC.reset (c : FourQC K) : FourQC K × List K :=
  ({ c with sub0 := c.sub0.reset.1, sub1 := c.sub1.reset.1 }, [0])

/-- `FiniteB6BridgeConverter` (converters.py 743–839): three half bridges. -/
structure B6 (K : Type*) where
  tau : K
  s0 : TwoQC K
  s1 : TwoQC K
  s2 : TwoQC K

/-- converters.py 799–806. -/
def B6.new (tau il : K) : B6 K := ⟨tau, TwoQC.new tau il, TwoQC.new tau il, TwoQC.new tau il⟩

/-- `_subactions` (converters.py 788–797), only evaluated for `action < 8`. -/
def b6Sub : ℕ → ℕ × ℕ × ℕ
  | 0 => (2, 2, 2) | 1 => (2, 2, 1) | 2 => (2, 1, 2) | 3 => (2, 1, 1)
  | 4 => (1, 2, 2) | 5 => (1, 2, 1) | 6 => (1, 1, 2) | _ => (1, 1, 1)

/-- converters.py 825–835. -/
def B6.setAction (c : B6 K) (a : ℕ) (t : K) : Call (B6 K) (List K) :=
  if a < 8 then
    let r0 := c.s0.setAction (b6Sub a).1 t
    match r0.2 with
    | .error e => ({ c with s0 := r0.1 }, .error e)
    | .ok t0 =>
      let r1 := c.s1.setAction (b6Sub a).2.1 t
      match r1.2 with
      | .error e => ({ c with s0 := r0.1, s1 := r1.1 }, .error e)
      | .ok t1 =>
        let r2 := c.s2.setAction (b6Sub a).2.2 t
        ({ c with s0 := r0.1, s1 := r1.1, s2 := r2.1 },
          match r2.2 with
          | .error e => .error e
          | .ok t2 => .ok (sortedSet (t0 ++ t1 ++ t2)))
  else (c, .error .assertion)

/-- converters.py 816–823 (each `i_out[k]` is evaluated just before the k-th half bridge is converted). -/
def B6.convert (c : B6 K) (i : List K) (t : K) : Call (B6 K) (List K) :=
  match i with
  | [] => (c, .error .index)
  | x0 :: i1 =>
    let r0 := c.s0.convert [x0] t
    match r0.2, i1 with
    | .ok (u0 :: _), x1 :: i2 =>
      let r1 := c.s1.convert [x1] t
      match r1.2, i2 with
      | .ok (u1 :: _), x2 :: _ =>
        let r2 := c.s2.convert [x2] t
        ({ c with s0 := r0.1, s1 := r1.1, s2 := r2.1 },
          match r2.2 with
          | .ok (u2 :: _) => .ok [u0 - 1 / 2, u1 - 1 / 2, u2 - 1 / 2]
          | .ok [] => .error .index
          | .error e => .error e)
      | .ok _, _ => ({ c with s0 := r0.1, s1 := r1.1 }, .error .index)
      | .error e, _ => ({ c with s0 := r0.1, s1 := r1.1 }, .error e)
    | .ok _, _ => ({ c with s0 := r0.1 }, .error .index)
    | .error e, _ => ({ c with s0 := r0.1 }, .error e)

/-- `sum([sub.i_sup([i]) for sub, i in zip(subs, i_out)])` (converters.py 837–839, 909–911): `zip` truncates. -/
def sumZip {σ : Type*} (f : σ → List K → Except Err K) : List σ → List K → Except Err K
  | s :: ss, x :: xs =>
    match f s [x], sumZip f ss xs with
    | .ok a, .ok b => .ok (a + b)
    | .error e, _ => .error e
    | _, .error e => .error e
  | _, _ => .ok 0

/-- converters.py 837–839. -/
def B6.iSup (c : B6 K) (i : List K) : Except Err K := sumZip TwoQC.iSup [c.s0, c.s1, c.s2] i

/-- converters.py 808–814. -/
def B6.reset (c : B6 K) : B6 K × List K :=
  ({ c with s0 := c.s0.reset.1, s1 := c.s1.reset.1, s2 := c.s2.reset.1 }, [0 - 1 / 2, 0 - 1 / 2, 0 - 1 / 2])

/-- The elementary finite converters (multi converters only contain these, converters.py 500–501). -/
inductive FConv (K : Type*) where
  | one (c : OneQC K)
  | two (c : TwoQC K)
  | four (c : FourQC K)
  | b6 (c : B6 K)

namespace FConv

/-- Dynamic dispatch of `set_action`. -/
def setAction (c : FConv K) (a : ℕ) (t : K) : Call (FConv K) (List K) :=
  match c with
  | one c => (c.setAction a t).map one id
  | two c => (c.setAction a t).map two id
  | four c => (c.setAction a t).map four id
  | b6 c => (c.setAction a t).map b6 id

/-- Dynamic dispatch of `convert`. -/
def convert (c : FConv K) (i : List K) (t : K) : Call (FConv K) (List K) :=
  match c with
  | one c => (c.convert i t).map one id
  | two c => (c.convert i t).map two id
  | four c => (c.convert i t).map four id
  | b6 c => (c.convert i t).map b6 id

/-- Dynamic dispatch of `i_sup`. -/
def iSup (c : FConv K) (i : List K) : Except Err K :=
  match c with
  | one c => c.iSup i
  | two c => c.iSup i
  | four c => c.iSup i
  | b6 c => c.iSup i

/-- Dynamic dispatch of `reset`. -/
def reset (c : FConv K) : FConv K × List K :=
  match c with
  | one c => c.reset.map one id
  | two c => c.reset.map two id
  | four c => c.reset.map four id
  | b6 c => c.reset.map b6 id

/-- `converter.tau = value` (converters.py 31–33): the setter of the base class, also for the bridges, whose
half bridges are not informed. -/
def setTau (c : FConv K) (v : K) : FConv K :=
  match c with
  | one c => one { c with tau := v }
  | two c => two { c with tau := v }
  | four c => four { c with tau := v }
  | b6 c => b6 { c with tau := v }

/-- `converter.tau` -/
def tau : FConv K → K
  | one c => c.tau
  | two c => c.tau
  | four c => c.tau
  | b6 c => c.tau

/-- Lower bound of the `voltages` box (converters.py 235, 266, 332, 784). -/
def vLow : FConv K → K
  | one _ => 0
  | two _ => 0
  | four _ => -1
  | b6 _ => -1

/-- Upper bound of the `voltages` box (converters.py 235, 266, 332, 784). -/
def vHigh : FConv K → K
  | one _ => 1
  | two _ => 1
  | four _ => 1
  | b6 _ => 1

/-- Dimension of the `voltages` box; the `currents` box has the same dimension (converters.py 235–236, 266–267,
332–333, 784–786). -/
def dim : FConv K → ℕ
  | b6 _ => 3
  | _ => 1

/-- `action_space.n` (converters.py 237, 268, 334, 782). -/
def nActions : FConv K → ℕ
  | one _ => 2
  | two _ => 3
  | four _ => 4
  | b6 _ => 8

end FConv

/-! ### Multi converters (finite) -/

/-- The loop of `FiniteMultiConverter.set_action` (converters.py 599–602): `zip` truncates; on an exception the
sub-converters handled before keep their new action. -/
def multiSetActionAux : List (FConv K) → List ℕ → K → Call (List (FConv K)) (List K)
  | [], _, _ => ([], .ok [])
  | cs, [], _ => (cs, .ok [])
  | c :: cs, a :: as, t =>
    let r := c.setAction a t
    match r.2 with
    | .error e => (r.1 :: cs, .error e)
    | .ok ts =>
      let rs := multiSetActionAux cs as t
      (r.1 :: rs.1, match rs.2 with | .error e => .error e | .ok tss => .ok (ts ++ tss))

/-- `FiniteMultiConverter.set_action` (converters.py 597–602). -/
def multiSetAction (cs : List (FConv K)) (as : List ℕ) (t : K) : Call (List (FConv K)) (List K) :=
  let r := multiSetActionAux cs as t
  (r.1, match r.2 with | .error e => .error e | .ok ts => .ok (sortedSet ts))

/-- The loop of `FiniteMultiConverter.convert` (converters.py 580–588): each sub-converter gets the next
`dim` entries of `i_out` (Python slices may be shorter than requested). -/
def multiConvert : List (FConv K) → List K → K → Call (List (FConv K)) (List K)
  | [], _, _ => ([], .ok [])
  | c :: cs, i, t =>
    let r := c.convert (i.take c.dim) t
    match r.2 with
    | .error e => (r.1 :: cs, .error e)
    | .ok us =>
      let rs := multiConvert cs (i.drop c.dim) t
      (r.1 :: rs.1, match rs.2 with | .error e => .error e | .ok uss => .ok (us ++ uss))

/-- `FiniteMultiConverter.i_sup` (converters.py 604–612). -/
def multiISup : List (FConv K) → List K → Except Err K
  | [], _ => .ok 0
  | c :: cs, i =>
    match c.iSup (i.take c.dim), multiISup cs (i.drop c.dim) with
    | .ok a, .ok b => .ok (a + b)
    | .error e, _ => .error e
    | _, .error e => .error e

/-- `FiniteMultiConverter.reset` (converters.py 590–595). -/
def multiReset : List (FConv K) → List (FConv K) × List K
  | [] => ([], [])
  | c :: cs => (c.reset.1 :: (multiReset cs).1, c.reset.2 ++ (multiReset cs).2)

/-- `FiniteMultiConverter.tau` setter (converters.py 521–525). -/
def multiSetTau (cs : List (FConv K)) (v : K) : List (FConv K) := cs.map (·.setTau v)

/-! ## Continuous (dynamically averaged) converters -/

/-- `ContOneQuadrantConverter` (converters.py 371–401). The interlocking time is unused. -/
structure COne (K : Type*) where
  tau : K
  action : K

/-- `ContTwoQuadrantConverter` (converters.py 404–435). -/
structure CTwo (K : Type*) where
  tau : K
  il : K
  action : K

/-- `_reset_action = [0]` (converters.py 138). -/
def COne.new (tau : K) : COne K := ⟨tau, 0⟩
/-- `_reset_action = [0]` (converters.py 138). -/
def CTwo.new (tau il : K) : CTwo K := ⟨tau, il, 0⟩

/-- converters.py 144–146, 56–69, 99–111 with `action_space = Box(0, 1)` (389). An action that is not a
one-element sequence makes the comparison raise (`ValueError`: truth value of an array). -/
def COne.setAction (c : COne K) (a : List K) (t : K) : Call (COne K) (List K) :=
  match a with
  | [x] => ({ c with action := clip x 0 1 }, .ok [t + c.tau])
  | _ => (c, .error .value)

/-- converters.py 144–146, 56–69, 99–111 with `action_space = Box(0, 1)` (423). -/
def CTwo.setAction (c : CTwo K) (a : List K) (t : K) : Call (CTwo K) (List K) :=
  match a with
  | [x] => ({ c with action := clip x 0 1 }, .ok [t + c.tau])
  | _ => (c, .error .value)

/-- converters.py 148–158, 391–397. -/
def COne.convert (c : COne K) (i : List K) (_t : K) : Except Err (List K) :=
  match i with
  | [] => .error .index
  | x :: _ => .ok [clip ((if 0 ≤ x then c.action else 1) - 0) 0 1]

/-- `_interlock` (converters.py 177–184). -/
def CTwo.interlock (c : CTwo K) (x : K) : K := ((SignType.sign x : SignType) : K) / c.tau * c.il

/-- converters.py 148–158, 425–427. -/
def CTwo.convert (c : CTwo K) (i : List K) (_t : K) : Except Err (List K) :=
  match i with
  | [] => .error .index
  | x :: _ => .ok [clip (c.action - c.interlock x) 0 1]

/-- converters.py 399–401. -/
def COne.iSup (c : COne K) (i : List K) : Except Err K :=
  match i with | [] => .error .index | x :: _ => .ok (c.action * x)

/-- converters.py 429–435. -/
def CTwo.iSup (c : CTwo K) (i : List K) : Except Err K :=
  match i with
  | [] => .error .index
  | x :: _ => .ok ((c.action + c.il / c.tau * ((if x < 0 then 1 else 0) - c.action)) * x)

/-- `ContFourQuadrantConverter` (converters.py 438–495). -/
structure CFour (K : Type*) where
  tau : K
  sub0 : CTwo K
  sub1 : CTwo K

/-- converters.py 463–469. -/
def CFour.new (tau il : K) : CFour K := ⟨tau, CTwo.new tau il, CTwo.new tau il⟩

/-- converters.py 485–491. The own clipped action (487) is never read again and is left out; the sub-converters get
the unclipped user action. -/
def CFour.setAction (c : CFour K) (a : List K) (t : K) : Call (CFour K) (List K) :=
  match a with
  | [x] =>
    ({ c with sub0 := (c.sub0.setAction [1 / 2 * (x + 1)] t).1,
              sub1 := (c.sub1.setAction [-(1 / 2) * (x - 1)] t).1 },
      .ok (sortedSet [t + c.sub0.tau, t + c.sub1.tau]))
  | _ => (c, .error .value)

/-- converters.py 481–483: unlike the finite bridge both half bridges get the same `i_out`. -/
def CFour.convert (c : CFour K) (i : List K) (t : K) : Except Err (List K) :=
  match c.sub0.convert i t, c.sub1.convert i t with
  | .ok (u0 :: _), .ok (u1 :: _) => .ok [u0 - u1]
  | .error e, _ => .error e
  | _, .error e => .error e
  | _, _ => .error .index

/-- converters.py 493–495. -/
def CFour.iSup (c : CFour K) (i : List K) : Except Err K :=
  match c.sub0.iSup i, i with
  | .ok a, x :: _ => (match c.sub1.iSup [-x] with | .ok b => .ok (a + b) | .error e => .error e)
  | .ok _, [] => .error .index
  | .error e, _ => .error e

/-- `ContB6BridgeConverter` (converters.py 842–911). -/
structure CB6 (K : Type*) where
  tau : K
  s0 : CTwo K
  s1 : CTwo K
  s2 : CTwo K

/-- converters.py 871–878. -/
def CB6.new (tau il : K) : CB6 K := ⟨tau, CTwo.new tau il, CTwo.new tau il, CTwo.new tau il⟩

/-- converters.py 897–903 (further entries of the action are ignored; the state after an `IndexError` is not
tracked). -/
def CB6.setAction (c : CB6 K) (a : List K) (t : K) : Call (CB6 K) (List K) :=
  match a with
  | x0 :: x1 :: x2 :: _ =>
    ({ c with s0 := (c.s0.setAction [1 / 2 * (x0 + 1)] t).1,
              s1 := (c.s1.setAction [1 / 2 * (x1 + 1)] t).1,
              s2 := (c.s2.setAction [1 / 2 * (x2 + 1)] t).1 },
      .ok (sortedSet [t + c.s0.tau, t + c.s1.tau, t + c.s2.tau]))
  | _ => (c, .error .index)

/-- converters.py 888–895. -/
def CB6.convert (c : CB6 K) (i : List K) (t : K) : Except Err (List K) :=
  match i with
  | x0 :: x1 :: x2 :: _ =>
    (match c.s0.convert [x0] t, c.s1.convert [x1] t, c.s2.convert [x2] t with
     | .ok (u0 :: _), .ok (u1 :: _), .ok (u2 :: _) => .ok [u0 - 1 / 2, u1 - 1 / 2, u2 - 1 / 2]
     | _, _, _ => .error .index)
  | _ => .error .index

/-- converters.py 909–911. -/
def CB6.iSup (c : CB6 K) (i : List K) : Except Err K := sumZip CTwo.iSup [c.s0, c.s1, c.s2] i

/-- The elementary continuous converters. -/
inductive CConv (K : Type*) where
  | one (c : COne K)
  | two (c : CTwo K)
  | four (c : CFour K)
  | b6 (c : CB6 K)

namespace CConv

/-- Dynamic dispatch of `set_action`. -/
def setAction (c : CConv K) (a : List K) (t : K) : Call (CConv K) (List K) :=
  match c with
  | one c => (c.setAction a t).map one id
  | two c => (c.setAction a t).map two id
  | four c => (c.setAction a t).map four id
  | b6 c => (c.setAction a t).map b6 id

/-- Dynamic dispatch of `convert` (which does not change the state of a continuous converter). -/
def convert (c : CConv K) (i : List K) (t : K) : Except Err (List K) :=
  match c with
  | one c => c.convert i t
  | two c => c.convert i t
  | four c => c.convert i t
  | b6 c => c.convert i t

/-- Dynamic dispatch of `i_sup`. -/
def iSup (c : CConv K) (i : List K) : Except Err K :=
  match c with
  | one c => c.iSup i
  | two c => c.iSup i
  | four c => c.iSup i
  | b6 c => c.iSup i

/-- `reset` (converters.py 45–54, 475–479, 880–886). -/
def reset (c : CConv K) : CConv K × List K :=
  match c with
  | one c => (one { c with action := 0 }, [0])
  | two c => (two { c with action := 0 }, [0])
  | four c => (four { c with sub0 := { c.sub0 with action := 0 }, sub1 := { c.sub1 with action := 0 } }, [0])
  | b6 c => (b6 { c with s0 := { c.s0 with action := 0 }, s1 := { c.s1 with action := 0 },
                         s2 := { c.s2 with action := 0 } }, [0 - 1 / 2, 0 - 1 / 2, 0 - 1 / 2])

/-- `converter.tau = value` (converters.py 31–33). -/
def setTau (c : CConv K) (v : K) : CConv K :=
  match c with
  | one c => one { c with tau := v }
  | two c => two { c with tau := v }
  | four c => four { c with tau := v }
  | b6 c => b6 { c with tau := v }

/-- `converter.tau` -/
def tau : CConv K → K
  | one c => c.tau
  | two c => c.tau
  | four c => c.tau
  | b6 c => c.tau

/-- Lower bound of the `voltages` box (converters.py 387, 421, 459, 865). -/
def vLow : CConv K → K
  | one _ => 0
  | two _ => 0
  | four _ => -1
  | b6 _ => -1

/-- Upper bound of the `voltages` box. -/
def vHigh (_ : CConv K) : K := 1

/-- Lower bound of the `action_space` box (converters.py 389, 423, 461, 863). -/
def aLow : CConv K → K
  | one _ => 0
  | two _ => 0
  | four _ => -1
  | b6 _ => -1

/-- Upper bound of the `action_space` box. -/
def aHigh (_ : CConv K) : K := 1

/-- Dimension of the `voltages`, `currents` and `action_space` boxes. -/
def dim : CConv K → ℕ
  | b6 _ => 3
  | _ => 1

end CConv

/-- The loop of `ContMultiConverter.set_action` (converters.py 700–708). -/
def cMultiSetActionAux : List (CConv K) → List K → K → Call (List (CConv K)) (List K)
  | [], _, _ => ([], .ok [])
  | c :: cs, a, t =>
    let r := c.setAction (a.take c.dim) t
    match r.2 with
    | .error e => (r.1 :: cs, .error e)
    | .ok ts =>
      let rs := cMultiSetActionAux cs (a.drop c.dim) t
      (r.1 :: rs.1, match rs.2 with | .error e => .error e | .ok tss => .ok (ts ++ tss))

/-- `ContMultiConverter.set_action` (converters.py 700–708). -/
def cMultiSetAction (cs : List (CConv K)) (a : List K) (t : K) : Call (List (CConv K)) (List K) :=
  let r := cMultiSetActionAux cs a t
  (r.1, match r.2 with | .error e => .error e | .ok ts => .ok (sortedSet ts))

/-- `ContMultiConverter.convert` (converters.py 717–725). -/
def cMultiConvert : List (CConv K) → List K → K → Except Err (List K)
  | [], _, _ => .ok []
  | c :: cs, i, t =>
    match c.convert (i.take c.dim) t, cMultiConvert cs (i.drop c.dim) t with
    | .ok a, .ok b => .ok (a ++ b)
    | .error e, _ => .error e
    | _, .error e => .error e

/-- `ContMultiConverter.i_sup` (converters.py 731–740). -/
def cMultiISup : List (CConv K) → List K → Except Err K
  | [], _ => .ok 0
  | c :: cs, i =>
    match c.iSup (i.take c.dim), cMultiISup cs (i.drop c.dim) with
    | .ok a, .ok b => .ok (a + b)
    | .error e, _ => .error e
    | _, .error e => .error e

/-- `ContMultiConverter.tau` setter (converters.py 639–643). -/
def cMultiSetTau (cs : List (CConv K)) (v : K) : List (CConv K) := cs.map (·.setTau v)

end GEM.Conv
