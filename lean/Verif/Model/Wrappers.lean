import Mathlib.Analysis.SpecialFunctions.Complex.Arg
import Verif.Model.Basic
import Verif.Model.Motors
import Verif.Model.Converters

/-!
# Physical system wrappers

`src/gym_electric_motor/physical_system_wrappers/`.

A physical system is what the wrappers see of it: `reset`, `simulate`, names, limits, nominal state, bounds of the state
space, sampling time and, if `hasattr(system, "dead_time")`, that number.  A wrapper is a function from such systems to such
systems, with its own attributes as additional state; `set_physical_system` may raise.
-/

namespace GEM.Wrap

open Real GEM.Motor

/-- A physical system or wrapper with internal state `σ` and actions `A`. -/
structure PSys (σ A : Type) where
  reset : σ → Call σ (List ℝ)
  simulate : σ → A → Call σ (List ℝ)
  names : List String
  /-- the dictionary `state_positions` -/
  pos : String → Option ℕ
  limits : List ℝ
  nominal : List ℝ
  low : List ℝ
  high : List ℝ
  tau : ℝ
  deadTime : Option ℕ := none

/-- The dictionary `{key: index for index, key in enumerate(names)}`: of equal names the last one counts. -/
def enumPos (names : List String) (key : String) : Option ℕ :=
  if key ∈ names then some (names.length - 1 - names.reverse.idxOf key) else none

/-- `state_positions[key]` -/
def position (pos : String → Option ℕ) (key : String) : Except Err ℕ :=
  match pos key with
  | some i => .ok i
  | none => .error .key

/-- `names.index(key)` -/
def indexOf (names : List String) (key : String) : Except Err ℕ :=
  if key ∈ names then .ok (names.idxOf key) else .error .value

/-- `a[i]` -/
def getE (l : List ℝ) (i : ℕ) : Except Err ℝ := match l[i]? with | some x => .ok x | none => .error .index

/-- `a * b` for arrays of the same length, `ValueError` otherwise. -/
noncomputable def mulE (a b : List ℝ) : Except Err (List ℝ) :=
  if a.length = b.length then .ok (List.zipWith (· * ·) a b) else .error .value

/-- `a / b` for arrays of the same length, `ValueError` otherwise. Division by zero (infinities or NaN in numpy) is not
modelled. -/
noncomputable def divE (a b : List ℝ) : Except Err (List ℝ) :=
  if a.length = b.length then .ok (List.zipWith (· / ·) a b) else .error .value

section

variable {σ A : Type}

/-- Apply `g` to a returned state. -/
def post (r : Call σ (List ℝ)) (g : List ℝ → Except Err (List ℝ)) : Call σ (List ℝ) := (r.1, r.2.bind g)

/-! ## Dead time -/

/-- Attributes: the deque (left end first) and how often `reset` has asked for reset actions. -/
structure DeadSt (A : Type) where
  deque : List A
  resets : ℕ

/-- `deque.extend(l)` with `maxlen = n`: appended on the right, dropped on the left. -/
def extend (n : ℕ) (d l : List A) : List A := (d ++ l).drop ((d ++ l).length - n)

/-- `deque.appendleft(a)` with `maxlen = n`: dropped on the right. -/
def appendLeft (n : ℕ) (d : List A) (a : A) : List A := (a :: d).take n

/-- `DeadTimeProcessor` (dead_time_processor.py:27-85). `ra k` is what the reset action callable returns at its `k`-th
call. Numbers of steps that are not positive integers are not modelled (line 36: `AssertionError`). -/
def deadTime (n : ℕ) (ra : ℕ → List A) (s : PSys σ A) : PSys (σ × DeadSt A) A where
  reset st :=
    let r := s.reset st.1
    match r.2 with
    | .error e => ((r.1, st.2), .error e)
    | .ok v => ((r.1, ⟨extend n [] (ra st.2.resets), st.2.resets + 1⟩), .ok v)
  simulate st a :=
    match st.2.deque.getLast? with
    | none => (st, .error .index)
    | some active =>
      let r := s.simulate st.1 active
      ((r.1, { st.2 with deque := appendLeft n st.2.deque.dropLast a }), r.2)
  names := s.names
  pos := enumPos s.names
  limits := s.limits
  nominal := s.nominal
  low := s.low
  high := s.high
  tau := s.tau
  deadTime := some n

/-- Action spaces (`gymnasium`). -/
inductive Space where
  | discrete (n : ℕ)
  | multi (nvec : List ℕ)
  | box (low high : List ℝ)

/-- Actions: an integer, an array, a list containing one integer array. -/
inductive Act where
  | int (a : ℕ)
  | ints (a : List ℕ)
  | reals (a : List ℝ)
  | nested (a : List ℕ)

/-- `space.contains(action)` -/
def Space.Contains : Space → Act → Prop
  | .discrete n, .int a => a < n
  | .multi nvec, .ints a => List.Forall₂ (· < ·) a nvec
  | .box low high, .reals a => List.Forall₂ (· ≤ ·) low a ∧ List.Forall₂ (· ≤ ·) a high
  | _, _ => False

/-- Default reset action (dead_time_processor.py:47-60). For multi-discrete spaces it is a list that contains the array. -/
noncomputable def Space.resetAction : Space → Act
  | .discrete _ => .int 0
  | .multi nvec => .nested (nvec.map fun _ => 0)
  | .box low _ => .reals (low.map fun _ => 0)

/-- What iterating over an action yields: numbers or an integer array. -/
inductive Item where
  | num (a : ℕ)
  | arr (a : List ℕ)

/-- The elements of an action in a `for` loop; an integer is not iterable. -/
def Act.items : Act → Except Err (List Item)
  | .int _ => .error .type
  | .ints a => .ok (a.map .num)
  | .reals _ => .error .type
  | .nested a => .ok [.arr a]

/-- `set_action` of a sub-converter: `assert self.action_space.contains(action)` (converters.py:192-201). -/
noncomputable def itemSet (c : GEM.Conv.FConv ℝ) (a : Item) (t : ℝ) : Call (GEM.Conv.FConv ℝ) (List ℝ) :=
  match a with
  | .num a => c.setAction a t
  | .arr _ => (c, .error .assertion)

/-- The loop of `FiniteMultiConverter.set_action` (converters.py:597-602) over such elements; real-valued actions, which do
not occur with these converters, are not modelled. -/
noncomputable def multiSetAux : List (GEM.Conv.FConv ℝ) → List Item → ℝ → Call (List (GEM.Conv.FConv ℝ)) (List ℝ)
  | [], _, _ => ([], .ok [])
  | cs, [], _ => (cs, .ok [])
  | c :: cs, a :: as, t =>
    let r := itemSet c a t
    match r.2 with
    | .error e => (r.1 :: cs, .error e)
    | .ok ts =>
      let rs := multiSetAux cs as t
      (r.1 :: rs.1, rs.2.map (ts ++ ·))

/-- `FiniteMultiConverter.set_action` (converters.py:597-602). -/
noncomputable def multiSet (cs : List (GEM.Conv.FConv ℝ)) (a : Act) (t : ℝ) : Call (List (GEM.Conv.FConv ℝ)) (List ℝ) :=
  match a.items with
  | .error e => (cs, .error e)
  | .ok l => let r := multiSetAux cs l t; (r.1, r.2.map GEM.Conv.sortedSet)

/-! ## Cosine and sine of an angle -/

/-- `_get_cos_sin` (cos_sin_processor.py:75-89). -/
noncomputable def cosSinOf (idx : ℕ) (v : List ℝ) : Except Err (List ℝ) :=
  (getE v idx).map (fun x => v ++ [cos (x * π), sin (x * π)])

/-- `np.delete(a, self._remove_idx)` -/
def del {α : Type} (remove : Bool) (idx : ℕ) (l : List α) : List α := if remove then l.eraseIdx idx else l

/-- `CosSinProcessor` (cos_sin_processor.py:38-62) once the position of the angle is known; `remove` is `remove_angle`. -/
noncomputable def cosSinAt (idx : ℕ) (angle : String) (remove : Bool) (s : PSys σ A) : PSys σ A where
  reset st := post (s.reset st) (cosSinOf idx)
  simulate st a := post (s.simulate st a) (fun v => (cosSinOf idx v).map (del remove idx))
  names := del remove idx s.names ++ ["cos(" ++ angle ++ ")", "sin(" ++ angle ++ ")"]
  pos := enumPos (del remove idx s.names ++ ["cos(" ++ angle ++ ")", "sin(" ++ angle ++ ")"])
  limits := del remove idx s.limits ++ [1, 1]
  nominal := del remove idx s.nominal ++ [1, 1]
  low := del remove idx s.low ++ [-1, -1]
  high := del remove idx s.high ++ [1, 1]
  tau := s.tau
  deadTime := s.deadTime

/-- `CosSinProcessor.set_physical_system` (cos_sin_processor.py:33-50). -/
noncomputable def cosSin (angle : String) (remove : Bool) (s : PSys σ A) : Except Err (PSys σ A) :=
  (position s.pos angle).map (fun idx => cosSinAt idx angle remove s)

/-! ## Sum of currents -/

/-- `self._limit(...)`: Python's `max` or `np.sum`. -/
noncomputable def reduce (sumMode : Bool) (l : List ℝ) : Except Err ℝ :=
  if sumMode then .ok l.sum
  else match l with
    | [] => .error .value
    | x :: xs => .ok (xs.foldl max x)

/-- `_get_current_sum` (current_sum_processor.py:56-65) appended. -/
noncomputable def withSum (idx : List ℕ) (v : List ℝ) : Except Err (List ℝ) :=
  (idx.mapM (getE v)).map (fun c => v ++ [c.sum])

/-- `CurrentSumProcessor` (current_sum_processor.py:29-54) once positions and limits are known. -/
noncomputable def currentSumAt (idx : List ℕ) (limit nominal : ℝ) (s : PSys σ A) : PSys σ A where
  reset st := post (s.reset st) (withSum idx)
  simulate st a := post (s.simulate st a) (withSum idx)
  names := s.names ++ ["i_sum"]
  pos k := if k = "i_sum" then some ((s.names ++ ["i_sum"]).idxOf "i_sum") else s.pos k
  limits := s.limits ++ [limit]
  nominal := s.nominal ++ [nominal]
  low := s.low ++ [-1]
  high := s.high ++ [1]
  tau := s.tau
  deadTime := s.deadTime

/-- `CurrentSumProcessor.set_physical_system` (current_sum_processor.py:24-44); `sumMode` is `limit == "sum"`. -/
noncomputable def currentSum (currents : List String) (sumMode : Bool) (s : PSys σ A) : Except Err (PSys σ A) := do
  let idx ← currents.mapM (position s.pos)
  let limit ← (idx.mapM (getE s.limits)).bind (reduce sumMode)
  let nominal ← (idx.mapM (getE s.nominal)).bind (reduce sumMode)
  .ok (currentSumAt idx limit nominal s)

/-! ## State noise -/

/-- Attributes of a `StateNoiseProcessor`: pointer, buffer, generator and number of generators spawned from the own seed
sequence. -/
structure NoiseSt (G : Type) where
  pointer : ℕ
  noise : Option (List (List ℝ))
  gen : G
  spawned : ℕ

/-- The `states` argument: names, or the string `'all'`, which is iterated character by character
(state_noise_processor.py:68). -/
inductive Selection where
  | names (l : List String)
  | all

/-- The elements of the iteration over `states`. -/
def Selection.iter : Selection → List String
  | .names l => l
  | .all => ["a", "l", "l"]

/-- `state[idx] = state[idx] + row` (state_noise_processor.py:90): all entries are read before the first is written. -/
noncomputable def addRow (idx : List ℕ) (row v : List ℝ) : Except Err (List ℝ) :=
  (idx.mapM (getE v)).bind (fun cur =>
    if cur.length = row.length then
      .ok ((idx.zip (List.zipWith (· + ·) cur row)).foldl (fun v p => v.set p.1 p.2) v)
    else .error .value)

/-- `_new_noise` (state_noise_processor.py:94-98); `draw` stands for the selected distribution. -/
def newNoise {G : Type} (draw : G → G × List (List ℝ)) (n : NoiseSt G) : NoiseSt G :=
  let d := draw n.gen
  { n with pointer := 0, noise := some d.2, gen := d.1 }

/-- `_add_noise` (state_noise_processor.py:83-92). -/
noncomputable def addNoise {G : Type} (idx : List ℕ) (n : NoiseSt G) (v : List ℝ) : Call (NoiseSt G) (List ℝ) :=
  match n.noise with
  | none => (n, .error .type)
  | some rows =>
    match rows[n.pointer]? with
    | none => (n, .error .index)
    | some row =>
      match addRow idx row v with
      | .error e => (n, .error e)
      | .ok w => ({ n with pointer := n.pointer + 1 }, .ok w)

/-- `StateNoiseProcessor` (state_noise_processor.py:71-98) once the positions are known; `len` is `random_length`, `spawn k`
the generator from the `k`-th child of the processor's own seed sequence (random_component.py:85-87). -/
noncomputable def stateNoiseAt {G : Type} (idx : List ℕ) (len : ℕ) (draw : G → G × List (List ℝ)) (spawn : ℕ → G)
    (s : PSys σ A) : PSys (σ × NoiseSt G) A where
  reset st :=
    let n := { st.2 with gen := spawn st.2.spawned, spawned := st.2.spawned + 1 }
    let r := s.reset st.1
    match r.2 with
    | .error e => ((r.1, n), .error e)
    | .ok v =>
      let q := addNoise idx (newNoise draw n) v
      ((r.1, q.1), q.2)
  simulate st a :=
    let n := if len ≤ st.2.pointer then newNoise draw st.2 else st.2
    let r := s.simulate st.1 a
    match r.2 with
    | .error e => ((r.1, n), .error e)
    | .ok v =>
      let q := addNoise idx n v
      ((r.1, q.1), q.2)
  names := s.names
  pos := enumPos s.names
  limits := s.limits
  nominal := s.nominal
  low := s.low
  high := s.high
  tau := s.tau
  deadTime := s.deadTime

/-- `StateNoiseProcessor.set_physical_system` (state_noise_processor.py:65-69). -/
noncomputable def stateNoise {G : Type} (sel : Selection) (len : ℕ) (draw : G → G × List (List ℝ)) (spawn : ℕ → G)
    (s : PSys σ A) : Except Err (PSys (σ × NoiseSt G) A) :=
  (sel.iter.mapM (position s.pos)).map (fun idx => stateNoiseAt idx len draw spawn s)

/-- `PhysicalSystemWrapper.seed` (physical_system_wrapper.py:108-111): only the inner system is seeded. -/
def seedWrapper {τ : Type} (seedInner : σ → ℕ → σ) (st : σ × τ) (seed : ℕ) : σ × τ := (seedInner st.1 seed, st.2)

/-- A new processor: `RandomComponent.__init__` (random_component.py:60-62) spawns the first generator. -/
def newNoiseSt {G : Type} (spawn : ℕ → G) : NoiseSt G := ⟨0, none, spawn 0, 1⟩

/-! ## dq to abc actions -/

/-- `_advance_angle` (dq_to_abc_action_processor.py:86-88). -/
noncomputable def advance (angleIdx omegaIdx : ℕ) (dead : Option ℕ) (tau p : ℝ) (state : List ℝ) : Except Err ℝ := do
  let eps ← getE state angleIdx
  let om ← getE state omegaIdx
  .ok (eps + (1 / 2 + (match dead with | some n => (n : ℝ) | none => 0)) * tau * om * p)

/-- `_transformation` (dq_to_abc_action_processor.py:14-24); an action of the wrong length raises `ValueError`. -/
noncomputable def dqAction (a : List ℝ) (angle : ℝ) : Except Err (List ℝ) :=
  match a with
  | [d, q'] => let v := t32 (q ![d, q'] angle); .ok [v 0, v 1, v 2]
  | _ => .error .value

/-- `simulate` and `reset` with a function that converts the action, given the denormalised state of the last step
(dq_to_abc_action_processor.py:80-84, 97-103, 127-143, 159-166). `_state` is `None` before the first reset. -/
noncomputable def dqWith (conv : List ℝ → List ℝ → Except Err (List ℝ)) (s : PSys σ (List ℝ)) :
    PSys (σ × Option (List ℝ)) (List ℝ) where
  reset st :=
    let r := s.reset st.1
    match r.2 with
    | .error e => ((r.1, st.2), .error e)
    | .ok v => match mulE v s.limits with
      | .error e => ((r.1, st.2), .error e)
      | .ok w => ((r.1, some w), .ok v)
  simulate st a :=
    match st.2 with
    | none => (st, .error .type)
    | some x => match conv x a with
      | .error e => (st, .error e)
      | .ok abc =>
        let r := s.simulate st.1 abc
        match r.2 with
        | .error e => ((r.1, st.2), .error e)
        | .ok v => match mulE v s.limits with
          | .error e => ((r.1, st.2), .error e)
          | .ok w => ((r.1, some w), .ok v)
  names := s.names
  pos := enumPos s.names
  limits := s.limits
  nominal := s.nominal
  low := s.low
  high := s.high
  tau := s.tau
  deadTime := s.deadTime

/-- `_ClassicDqToAbcActionProcessor` (dq_to_abc_action_processor.py:91-103), for PMSM and SCIM. -/
noncomputable def dqClassic (angle : String) (p : ℝ) (s : PSys σ (List ℝ)) : Except Err (PSys (σ × Option (List ℝ)) (List ℝ)) := do
  let om ← indexOf s.names "omega"
  let an ← indexOf s.names angle
  .ok (dqWith (fun x a => (advance an om s.deadTime s.tau p x).bind (dqAction a)) s)

/-- `_EESMDqToAbcActionProcessor` (dq_to_abc_action_processor.py:150-166). -/
noncomputable def dqEesm (p : ℝ) (s : PSys σ (List ℝ)) : Except Err (PSys (σ × Option (List ℝ)) (List ℝ)) := do
  let om ← indexOf s.names "omega"
  let an ← indexOf s.names "epsilon"
  .ok (dqWith (fun x a => do
    let ang ← advance an om s.deadTime s.tau p x
    let abc ← dqAction a.dropLast ang
    match a.getLast? with
    | none => .error .index
    | some e => .ok (abc ++ [e])) s)

/-- `_DFIMDqToAbcActionProcessor` (dq_to_abc_action_processor.py:115-148): stator action with the rotor angle, rotor action
with the difference of flux angle and rotor angle. -/
noncomputable def dqDfim (p : ℝ) (s : PSys σ (List ℝ)) : Except Err (PSys (σ × Option (List ℝ)) (List ℝ)) := do
  let om ← indexOf s.names "omega"
  let an ← indexOf s.names "epsilon"
  let fl ← indexOf s.names "psi_angle"
  .ok (dqWith (fun x a => do
    let ang ← advance an om s.deadTime s.tau p x
    let st ← dqAction (a.take 2) ang
    let psi ← getE x fl
    let ro ← dqAction (a.drop 2) (psi - ang)
    .ok (st ++ ro)) s)

/-! ## Flux observer -/

/-- The new value of `_integrated` (flux_observer.py:88-101), from currents and speed after the step. -/
noncomputable def fluxUpdate (m : ImParams ℝ) (tau : ℝ) (is : Fin 3 → ℝ) (omega : ℝ) (psi : ℂ) : ℂ :=
  let i := t23 is
  let om := omega * m.p
  let delta := (⟨i 0, i 1⟩ : ℂ) * (m.rr : ℂ) * (m.lm : ℂ) / ((m.lm + m.lsigr : ℝ) : ℂ) - psi * (⟨m.rr / (m.lm + m.lsigr), -om⟩ : ℂ)
  psi + delta * (tau : ℂ)

/-- `simulate` after the inner step (flux_observer.py:87-102). -/
noncomputable def fluxPost (m : ImParams ℝ) (tau : ℝ) (ia ib ic om : ℕ) (innerLimits limits : List ℝ) (psi : ℂ) (v : List ℝ) :
    ℂ × Except Err (List ℝ) :=
  match mulE v innerLimits with
  | .error e => (psi, .error e)
  | .ok x =>
    match getE x ia, getE x ib, getE x ic, getE x om with
    | .ok a, .ok b, .ok c, .ok w =>
      let psi' := fluxUpdate m tau ![a, b, c] w psi
      (psi', divE (x ++ [‖psi'‖, psi'.arg]) limits)
    | _, _, _, _ => (psi, .error .index)

/-- `FluxObserver` (flux_observer.py:54-102) once positions and the flux limit are known. -/
noncomputable def fluxAt (m : ImParams ℝ) (psiLimit : ℝ) (ia ib ic om : ℕ) (s : PSys σ A) : PSys (σ × ℂ) A where
  reset st := let r := s.reset st.1; ((r.1, 0), r.2.map (fun v => v ++ [0, 0]))
  simulate st a :=
    let r := s.simulate st.1 a
    match r.2 with
    | .error e => ((r.1, st.2), .error e)
    | .ok v =>
      let q := fluxPost m s.tau ia ib ic om s.limits (s.limits ++ [psiLimit, π]) st.2 v
      ((r.1, q.1), q.2)
  names := s.names ++ ["psi_abs", "psi_angle"]
  pos := enumPos (s.names ++ ["psi_abs", "psi_angle"])
  limits := s.limits ++ [psiLimit, π]
  nominal := s.nominal ++ [psiLimit, π]
  low := s.low ++ [-psiLimit, -π]
  high := s.high ++ [psiLimit, π]
  tau := s.tau
  deadTime := s.deadTime

/-- `FluxObserver.set_physical_system` (flux_observer.py:54-78) with three current names. -/
noncomputable def fluxObserver (m : ImParams ℝ) (na nb nc : String) (s : PSys σ A) : Except Err (PSys (σ × ℂ) A) := do
  let sd ← indexOf s.names "i_sd"
  let isd ← getE s.limits sd
  let ia ← position s.pos na
  let ib ← position s.pos nb
  let ic ← position s.pos nc
  let om ← position s.pos "omega"
  .ok (fluxAt m (m.lm * isd) ia ib ic om s)

end

end GEM.Wrap
