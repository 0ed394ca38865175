import Mathlib.Data.Real.Basic
import Mathlib.Algebra.Order.Floor.Ring
import Mathlib.Analysis.SpecialFunctions.Trigonometric.Basic
import Mathlib.Analysis.SpecialFunctions.Pow.Real
import Mathlib.Analysis.SpecialFunctions.Log.Base
import Verif.Model.Basic

/-!
# Reference generators  (`reference_generators/*.py`, `core.py` 395–509)

A numpy generator is a state `G`; every draw returns the state afterwards and the drawn numbers (`Rng`).  A reference
generator is its class (`RefGen σ`) together with its attributes (`σ`).  Objects are assumed to be distinct: the same
sub-generator object passed twice to a `SwitchedReferenceGenerator` is not modelled.  The `trajectories` entry of `reset`,
which is `None` for every generator of the package, is left out, and so are the keyword arguments of the constructors.
-/

namespace GEM.Refs

open GEM

/-- `reference_names`: a list of names, or (`const_reference_generator.py` 24) a bare string. -/
inductive Names where
  | list (l : List String)
  | str (s : String)
deriving DecidableEq

/-- What iterating over the names yields: the entries of a list, the characters of a string. -/
def Names.iter : Names → List String
  | .list l => l
  | .str s => s.toList.map String.singleton

/-- The interface of reference generators (core.py 395–509) after `set_modules`: `reference_names`, `referenced_states`,
bounds of `reference_space`, `reset(initial_state, initial_reference)`, `get_reference(state)`,
`get_reference_observation(state)`. -/
structure RefGen (σ K : Type) where
  names : Names
  referenced : List Bool
  low : List K
  high : List K
  reset : σ → List K → Option (List K) → Call σ (List K × List K)
  getRef : σ → List K → Call σ (List K)
  getObs : σ → List K → Call σ (List K)

/-- `ReferenceGenerator.reset` (core.py 485–504): the tuple is evaluated from left to right. -/
def baseReset {σ K : Type} (getRef getObs : σ → Call σ (List K)) (st : σ) : Call σ (List K × List K) :=
  (getRef st).bind (fun st r => (getObs st).bind (fun st o => (st, .ok (r, o))))

/-- `set_state_array({reference_state: 1}, state_names).astype(bool)` (utils.py 40–70): unknown names are refused. -/
def mask (names : List String) (s : String) : Except Err (List Bool) :=
  if s ∈ names then .ok (names.map (fun n => decide (n = s))) else .error .assertion

/-- `reference = zeros; reference[referenced_states] = value` -/
def place {K : Type} [Zero K] (m : List Bool) (v : K) : List K := m.map (fun b => if b then v else 0)

/-- `a[referenced_states][0]` -/
def pick {K : Type} : List Bool → List K → Except Err K
  | true :: _, x :: _ => .ok x
  | false :: m, _ :: a => pick m a
  | _, _ => .error .index

/-! ## Sub-episoded generators (subepisoded_reference_generator.py) -/

/-- Attributes of a `SubepisodedReferenceGenerator`: `_reference`, `_limit_margin`, `_reference_value`,
`_current_episode_length`, `_k`, `_random_generator`, and the number of children its seed sequence has spawned. -/
structure SubSt (G K : Type) where
  reference : Option (List K)
  margin : K × K
  value : K
  len : ℤ
  k : ℕ
  gen : G
  spawned : ℕ

/-- What is fixed after `set_modules`: the referenced states, the draw of a sub-episode length (`int(_get_current_value(
_episode_len_range))`, lines 96, 109–119), the subclass' `_reset_reference` as a function of `_limit_margin`,
`_reference_value`, `_current_episode_length` and the generator, the children of the seed sequence, the reference space,
and the draw of an initial reference (`WienerProcessReferenceGenerator.reset`, `None` for the other classes). -/
structure SubCfg (G K : Type) where
  name : String
  mask : List Bool
  low : K
  high : K
  drawLen : G → G × Except Err ℤ
  make : K × K → K → ℤ → G → G × Except Err (List K)
  spawn : ℕ → G
  initial : Option (G → G × K)

variable {G K : Type}

/-- `_k = 0; _current_episode_length = int(..); _reset_reference()` (lines 95–97) -/
def newSub (c : SubCfg G K) (st : SubSt G K) : Call (SubSt G K) Unit :=
  let d := c.drawLen st.gen
  match d.2 with
  | .error e => ({ st with k := 0, gen := d.1 }, .error e)
  | .ok n =>
    let r := c.make st.margin st.value n d.1
    match r.2 with
    | .error e => ({ st with k := 0, len := n, gen := r.1 }, .error e)
    | .ok l => ({ st with k := 0, len := n, gen := r.1, reference := some l }, .ok ())

/-- `self._reference_value = self._reference[self._k]; self._k += 1; return [value]` (lines 98–100) -/
def nextValue (st : SubSt G K) : Call (SubSt G K) (List K) :=
  match st.reference with
  | none => (st, .error .type)
  | some l =>
    match l[st.k]? with
    | none => (st, .error .index)
    | some v => ({ st with value := v, k := st.k + 1 }, .ok [v])

/-- `get_reference_observation` (lines 93–100) -/
def subObs (c : SubCfg G K) (st : SubSt G K) : Call (SubSt G K) (List K) :=
  if st.len ≤ st.k then (newSub c st).bind (fun st _ => nextValue st) else nextValue st

/-- `get_reference` (lines 88–91) -/
def subRef [Zero K] (c : SubCfg G K) (st : SubSt G K) : Call (SubSt G K) (List K) :=
  (st, .ok (place c.mask st.value))

/-- `SubepisodedReferenceGenerator.reset` (lines 66–86) -/
def subResetWith [Zero K] (c : SubCfg G K) (st : SubSt G K) (init : Option (List K)) :
    Call (SubSt G K) (List K × List K) :=
  match init with
  | none => baseReset (subRef c) (subObs c)
      { st with value := 0, gen := c.spawn st.spawned, spawned := st.spawned + 1, len := -1 }
  | some a =>
    match pick c.mask a with
    | .error e => (st, .error e)
    | .ok v => baseReset (subRef c) (subObs c)
        { st with value := v, gen := c.spawn st.spawned, spawned := st.spawned + 1, len := -1 }

/-- `reset` of the class: the Wiener process draws a missing initial reference with the generator it has before it calls
the base class (wiener_process_reference_generator.py 43–49). -/
def subReset [Zero K] (c : SubCfg G K) (st : SubSt G K) (init : Option (List K)) : Call (SubSt G K) (List K × List K) :=
  match init, c.initial with
  | none, some draw =>
    let d := draw st.gen
    subResetWith c { st with gen := d.1 } (some (place c.mask d.2))
  | init, _ => subResetWith c st init

/-- A sub-episoded generator as `RefGen`. -/
def subGen [Zero K] (c : SubCfg G K) : RefGen (SubSt G K) K where
  names := .list [c.name]
  referenced := c.mask
  low := [c.low]
  high := [c.high]
  reset st _ init := subReset c st init
  getRef st _ := subRef c st
  getObs st _ := subObs c st

/-- `__init__` (lines 33–43): length drawn, no trajectory yet. -/
def subInit [Zero K] (margin : K × K) (len : ℤ) (g : G) : SubSt G K := ⟨none, margin, 0, len, 0, g, 1⟩

/-! ## The limit margin -/

/-- `limit_margin` as passed by the user; `other` is any type but `None`, `float`, `int`, `tuple`. -/
inductive Margin (K : Type) where
  | none
  | num (m : K)
  | pair (a b : K)
  | other
deriving DecidableEq

/-- `set_modules` (lines 45–64) for nominal value, limit and state-space bounds of the referenced state: the margin that is
stored, which is also the reference space. Division by a zero limit yields 0 here and `nan`/`inf` in numpy. -/
def setMargin [Mul K] [Div K] (nominal limit low high : K) : Margin K → Except Err (K × K)
  | .none => .ok (nominal / limit * low, nominal / limit * high)
  | .num m => .ok (m * low, m * high)
  | .pair a b => .ok (a * low, b * high)
  | .other => .error .generic

/-- What the attribute `_limit_margin` holds after `set_modules`, as the argument of a second call of `set_modules`. -/
def Margin.ofPair (p : K × K) : Margin K := .pair p.1 p.2

/-! ## Random numbers and trajectories -/

/-- The draws of a numpy generator that are used: `uniform()`, `normal(0, sigma, n)`, `laplace(0, sigma, n)`,
`triangular(0, 0.5, 1)`. -/
structure Rng (G : Type) where
  uniform : G → G × ℝ
  normal : ℝ → ℕ → G → G × List ℝ
  laplace : ℝ → ℕ → G → G × List ℝ
  triangular : G → G × ℝ

/-- A range argument: python number, numpy number, pair. -/
inductive Range where
  | num (x : ℝ)
  | npnum (x : ℝ)
  | pair (a b : ℝ)

/-- `_get_current_value` (lines 109–119).  For a numpy number it falls off its end and returns `None`; every use of that
`None` raises a TypeError, which is modelled as raised here. -/
noncomputable def currentValue (R : Rng G) : Range → G → G × Except Err ℝ
  | .num x, g => (g, .ok x)
  | .npnum _, g => (g, .error .type)
  | .pair a b, g => ((R.uniform g).1, .ok ((b - a) * (R.uniform g).2 + a))

/-- python `int(x)`: towards zero -/
noncomputable def pyInt (x : ℝ) : ℤ := if 0 ≤ x then ⌊x⌋ else ⌈x⌉

/-- `int(self._get_current_value(self._episode_len_range))` (line 96) -/
noncomputable def lenDraw (R : Rng G) (r : Range) (g : G) : G × Except Err ℤ :=
  ((currentValue R r g).1, (currentValue R r g).2.map pyInt)

/-- `np.clip` of a range; of a python number it is a numpy number -/
noncomputable def clipRange (lo hi : ℝ) : Range → Range
  | .num x => .npnum (clip x lo hi)
  | .npnum x => .npnum (clip x lo hi)
  | .pair a b => .pair (clip a lo hi) (clip b lo hi)

/-- `amplitude_range or (0, np.inf)`, clipped in `set_modules` (e.g. sinusoidal_reference_generator.py 32, 38–42) -/
noncomputable def amplitudeRange (r : Option Range) (m : ℝ × ℝ) : Range :=
  match r with
  | none => .pair (min 0 ((m.2 - m.1) / 2)) ((m.2 - m.1) / 2)
  | some r => clipRange 0 ((m.2 - m.1) / 2) r

/-- `offset_range or (-np.inf, np.inf)`, clipped in `set_modules` (lines 34, 43) -/
noncomputable def offsetRange (r : Option Range) (m : ℝ × ℝ) : Range :=
  match r with
  | none => .pair (min m.1 m.2) m.2
  | some r => clipRange m.1 m.2 r

/-- `np.log10(sigma_range)`: a numpy number for a number -/
noncomputable def logRange : Range → Range
  | .num x => .npnum (Real.logb 10 x)
  | .npnum x => .npnum (Real.logb 10 x)
  | .pair a b => .pair (Real.logb 10 a) (Real.logb 10 b)

/-- The loop of the random walks (wiener_process_reference_generator.py 35–41, laplace_process_reference_generator.py
29–35). -/
noncomputable def walk (m : ℝ × ℝ) : ℝ → List ℝ → List ℝ
  | _, [] => []
  | v, x :: xs =>
    let v := v + x
    let v := if v > m.2 then m.2 else v
    let v := if v < m.1 then m.1 else v
    v :: walk m v xs

/-- `_reset_reference` of the random walks, `noise` being `normal` or `laplace`; a negative size raises a ValueError. -/
noncomputable def walkMake (R : Rng G) (noise : ℝ → ℕ → G → G × List ℝ) (sigma : Range) (m : ℝ × ℝ) (v : ℝ) (n : ℤ)
    (g : G) : G × Except Err (List ℝ) :=
  let s := currentValue R (logRange sigma) g
  match s.2 with
  | .error e => (s.1, .error e)
  | .ok x =>
    if n < 0 then (s.1, .error .value)
    else
      let r := noise ((10 : ℝ) ^ x) n.toNat s.1
      (r.1, .ok (walk m v r.2))

/-- `WienerProcessReferenceGenerator._reset_reference` (lines 30–41) -/
noncomputable def wienerMake (R : Rng G) (sigma : Range) := walkMake R R.normal sigma

/-- `LaplaceProcessReferenceGenerator._reset_reference` (lines 24–35) -/
noncomputable def laplaceMake (R : Rng G) (sigma : Range) := walkMake R R.laplace sigma

/-- the draw of the initial Wiener reference: `uniform(a, b, 1)` is `a + (b - a) * uniform()` -/
noncomputable def wienerInitial (R : Rng G) (a b : ℝ) (g : G) : G × ℝ :=
  ((R.uniform g).1, a + (b - a) * (R.uniform g).2)

/-- `np.linspace(0, (n - 1) * tau, n)` -/
noncomputable def times (tau : ℝ) (n : ℕ) : List ℝ := (List.range n).map (fun i : ℕ => (i : ℝ) * tau)

/-- python's / numpy's `x % y` for `y > 0` -/
noncomputable def pyMod (x y : ℝ) : ℝ := x - y * ⌊x / y⌋

/-- `scipy.signal.sawtooth(t, width)` for `0 ≤ width ≤ 1` (scipy documentation) -/
noncomputable def sawtooth (t width : ℝ) : ℝ :=
  let m := pyMod t (2 * Real.pi)
  if m < 2 * Real.pi * width then m / (Real.pi * width) - 1
  else (Real.pi * (width + 1) - m) / (Real.pi * (1 - width))

/-- Configuration of the four waveform generators; the ranges are those after `set_modules`. -/
structure Wave where
  amplitude : Range
  frequency : Range
  offset : Range
  tau : ℝ

/-- amplitude, frequency and offset of the next sub-episode; `lo` is the first clipping bound of the offset minus the
amplitude: `-_limit_margin[1]` for the sine, sawtooth and triangle, `_limit_margin[0]` for the step (e.g.
sinusoidal_reference_generator.py 46–53, step_reference_generator.py 39–46). -/
noncomputable def waveParams (R : Rng G) (w : Wave) (lo hi : ℝ) (g : G) : G × Except Err (ℝ × ℝ × ℝ) :=
  let a := currentValue R w.amplitude g
  match a.2 with
  | .error e => (a.1, .error e)
  | .ok amp =>
    let f := currentValue R w.frequency a.1
    match f.2 with
    | .error e => (f.1, .error e)
    | .ok freq =>
      let o := currentValue R (clipRange (lo + amp) (hi - amp) w.offset) f.1
      match o.2 with
      | .error e => (o.1, .error e)
      | .ok off => (o.1, .ok (amp, freq, off))

/-- `np.clip(amplitude * x + offset, margin[0], margin[1])` on a whole trajectory -/
noncomputable def shape (m : ℝ × ℝ) (amp off : ℝ) (x : List ℝ) : List ℝ :=
  x.map (fun x => clip (amp * x + off) m.1 m.2)

/-- The unclipped waveform of the sine generator: `sin(2 pi f t + phase)`. -/
noncomputable def sinWave (tau freq phase : ℝ) (n : ℕ) : List ℝ :=
  (times tau n).map (fun t => Real.sin (2 * Real.pi * freq * t + phase))

/-- `sawtooth(2 pi f t + phase, width)` -/
noncomputable def sawWave (width tau freq phase : ℝ) (n : ℕ) : List ℝ :=
  (times tau n).map (fun t => sawtooth (2 * Real.pi * freq * t + phase) width)

/-- `np.roll(x, s)`: entry `i` moves to `i + s` -/
def roll (x : List ℝ) (s : ℤ) : List ℝ :=
  (List.range x.length).map (fun i : ℕ => x.getD (((i : ℤ) - s) % (x.length : ℤ)).toNat 0)

/-- `np.sign(f * (t % (1/f)) - ratio)` rolled by `int(1/f/tau * phase)` (step_reference_generator.py 48–58) -/
noncomputable def stepWave (tau freq ratio phase : ℝ) (n : ℕ) : List ℝ :=
  roll ((times tau n).map (fun t => (SignType.sign (freq * pyMod t (1 / freq) - ratio) : ℝ)))
    (pyInt (1 / freq / tau * phase))

/-- `SinusoidalReferenceGenerator._reset_reference` (sinusoidal_reference_generator.py 45–61); a negative number of points
raises a ValueError. -/
noncomputable def sinMake (R : Rng G) (w : Wave) (m : ℝ × ℝ) (_ : ℝ) (n : ℤ) (g : G) : G × Except Err (List ℝ) :=
  let p := waveParams R w (-m.2) m.2 g
  match p.2 with
  | .error e => (p.1, .error e)
  | .ok (amp, freq, off) =>
    if n < 0 then (p.1, .error .value)
    else
      let u := R.uniform p.1
      (u.1, .ok (shape m amp off (sinWave w.tau freq (u.2 * 2 * Real.pi) n.toNat)))

/-- `SawtoothReferenceGenerator._reset_reference` (sawtooth_reference_generator.py 41–60) -/
noncomputable def sawMake (R : Rng G) (w : Wave) (m : ℝ × ℝ) (_ : ℝ) (n : ℤ) (g : G) : G × Except Err (List ℝ) :=
  let p := waveParams R w (-m.2) m.2 g
  match p.2 with
  | .error e => (p.1, .error e)
  | .ok (amp, freq, off) =>
    if n < 0 then (p.1, .error .value)
    else
      let u := R.uniform p.1
      (u.1, .ok (shape m amp off (sawWave 1 w.tau freq (u.2 * 2 * Real.pi) n.toNat)))

/-- `TriangularReferenceGenerator._reset_reference` (triangle_reference_generator.py 47–74) -/
noncomputable def triMake (R : Rng G) (w : Wave) (m : ℝ × ℝ) (_ : ℝ) (n : ℤ) (g : G) : G × Except Err (List ℝ) :=
  let p := waveParams R w (-m.2) m.2 g
  match p.2 with
  | .error e => (p.1, .error e)
  | .ok (amp, freq, off) =>
    if n < 0 then (p.1, .error .value)
    else
      let u := R.uniform p.1
      let v := R.uniform u.1
      (v.1, .ok (shape m amp off (sawWave v.2 w.tau freq (u.2 * 2 * Real.pi) n.toNat)))

/-- `StepReferenceGenerator._reset_reference` (step_reference_generator.py 38–60); a frequency 0 raises a
ZeroDivisionError (`1 / self._frequency`). -/
noncomputable def stepMake (R : Rng G) (w : Wave) (m : ℝ × ℝ) (_ : ℝ) (n : ℤ) (g : G) : G × Except Err (List ℝ) :=
  let p := waveParams R w m.1 m.2 g
  match p.2 with
  | .error e => (p.1, .error e)
  | .ok (amp, freq, off) =>
    let h := R.triangular p.1
    if n < 0 then (h.1, .error .value)
    else if freq = 0 then (h.1, .error .zeroDiv)
    else
      let u := R.uniform h.1
      (u.1, .ok (shape m amp off (stepWave w.tau freq h.2 u.2 n.toNat)))

/-! ## Constant and zero references -/

/-- `ConstReferenceGenerator` (const_reference_generator.py); `reset` is inherited. -/
def constGen [Zero K] (name : String) (m : List Bool) (v : K) : RefGen Unit K where
  names := .str name
  referenced := m
  low := [v]
  high := [v]
  reset st _ _ := baseReset (fun st => (st, .ok (place m v))) (fun st => (st, .ok [v])) st
  getRef st _ := (st, .ok (place m v))
  getObs st _ := (st, .ok [v])

/-- `ZeroReferenceGenerator` (zero_reference_generator.py) for `n` states -/
def zeroGen [Zero K] (n : ℕ) : RefGen Unit K where
  names := .list []
  referenced := List.replicate n false
  low := []
  high := []
  reset st _ _ := baseReset (fun st => (st, .ok (List.replicate n 0))) (fun st => (st, .ok [])) st
  getRef st _ := (st, .ok (List.replicate n 0))
  getObs st _ := (st, .ok [])

/-! ## Multiple reference generators (multiple_reference_generator.py) -/

variable {σ : Type}

/-- numpy addition of two arrays of equal length; other lengths raise (broadcasting of length 1 is not modelled: the
arrays have one entry per state) -/
def addArr [Add K] (a b : List K) : Except Err (List K) :=
  if a.length = b.length then .ok (List.zipWith (· + ·) a b) else .error .value

/-- The calls `g.m(..)` for every sub-generator in order; the first exception ends the method. -/
def each {α : Type} (m : RefGen σ K → σ → Call σ α) : List (RefGen σ K) → List σ → Call (List σ) (List α)
  | g :: gs, s :: ss =>
    let r := m g s
    match r.2 with
    | .error e => (r.1 :: ss, .error e)
    | .ok a =>
      let q := each m gs ss
      (r.1 :: q.1, q.2.map (a :: ·))
  | _, ss => (ss, .ok [])

/-- `sum([..])`, started with the integer 0: an empty list stays a number, which is no array -/
def sumArrs [Add K] : List (List K) → Except Err (List K)
  | [] => .error .type
  | a :: l => l.foldlM addArr a

/-- number of sub-generators that reference the state -/
def countTrue (l : List (List Bool)) (i : ℕ) : ℕ := l.countP (fun m => m.getD i false)

/-- the overlap assertion and the new `_referenced_states` (multiple_reference_generator.py 53–65) for `n` states; without
sub-generators `all(True)` raises a TypeError -/
def multiMask (n : ℕ) (gs : List (RefGen σ K)) : Except Err (List Bool) :=
  if gs = [] then .error .type
  else if (List.range n).all (fun i => decide (countTrue (gs.map (·.referenced)) i < 2)) then
    .ok ((List.range n).map (fun i => decide (0 < countTrue (gs.map (·.referenced)) i)))
  else .error .assertion

/-- `reset` (lines 67–75): `refs` starts with zeros, `ref_obs` with an empty array -/
def multiReset [Add K] [Zero K] (n : ℕ) (gs : List (RefGen σ K)) (st : List σ) (s : List K) (init : Option (List K)) :
    Call (List σ) (List K × List K) :=
  let q := each (fun g t => g.reset t s init) gs st
  (q.1, q.2.bind (fun l => ((l.map Prod.fst).foldlM addArr (List.replicate n 0)).map (fun r =>
    (r, (l.map Prod.snd).flatten))))

/-- `get_reference` (lines 77–79) -/
def multiRef [Add K] (gs : List (RefGen σ K)) (st : List σ) (s : List K) : Call (List σ) (List K) :=
  let q := each (fun g t => g.getRef t s) gs st
  (q.1, q.2.bind sumArrs)

/-- `get_reference_observation` (lines 81–85); `np.concatenate([])` raises a ValueError -/
def multiObs (gs : List (RefGen σ K)) (st : List σ) (s : List K) : Call (List σ) (List K) :=
  let q := each (fun g t => g.getObs t s) gs st
  (q.1, q.2.bind (fun l => if l = [] then .error .value else .ok l.flatten))

/-- `MultipleReferenceGenerator` with given sub-generator objects, `__init__` 40–42 and `set_modules`, for `n` states. -/
def multiGen [Add K] [Zero K] (n : ℕ) (gs : List (RefGen σ K)) : Except Err (RefGen (List σ) K) :=
  (multiMask n gs).map (fun m => {
    names := .list (gs.flatMap (fun g => g.names.iter))
    referenced := m
    low := gs.flatMap (·.low)
    high := gs.flatMap (·.high)
    reset := multiReset n gs
    getRef := multiRef gs
    getObs := multiObs gs })

/-! ## Switched reference generators (switched_reference_generator.py) -/

/-- Attributes of a `SwitchedReferenceGenerator`: the sub-generators' attributes, `_reference`, `_k`,
`_current_episode_length`, index of `_current_ref_generator`, generator, spawned children. -/
structure SwSt (G σ K : Type) where
  subs : List σ
  reference : Option (List K)
  k : ℕ
  len : ℤ
  cur : ℕ
  gen : G
  spawned : ℕ

/-- Fixed attributes: the draws `integers(a, b)` and `choice(sub_generators, p)` (as an index) of `_reset_reference`, and
the children of the seed sequence. -/
structure SwCfg (G σ K : Type) where
  gens : List (RefGen σ K)
  integers : G → G × ℤ
  choice : G → G × ℕ
  spawn : ℕ → G

/-- a call of a method of the current generator -/
def onCurrent {α : Type} (c : SwCfg G σ K) (st : SwSt G σ K) (m : RefGen σ K → σ → Call σ α) : Call (SwSt G σ K) α :=
  match c.gens[st.cur]?, st.subs[st.cur]? with
  | some g, some s => ({ st with subs := st.subs.set st.cur (m g s).1 }, (m g s).2)
  | _, _ => (st, .error .index)

/-- `_reset_reference` (lines 83–88) -/
def swNew (c : SwCfg G σ K) (st : SwSt G σ K) : SwSt G σ K :=
  let d := c.integers st.gen
  let e := c.choice d.1
  { st with len := d.2, k := 0, cur := e.2, gen := e.1 }

/-- `reset` (lines 65–68) -/
def swReset (c : SwCfg G σ K) (st : SwSt G σ K) (s : List K) (init : Option (List K)) :
    Call (SwSt G σ K) (List K × List K) :=
  onCurrent c (swNew c { st with gen := c.spawn st.spawned, spawned := st.spawned + 1 }) (fun g t => g.reset t s init)

/-- `get_reference` (lines 70–72) -/
def swRef (c : SwCfg G σ K) (st : SwSt G σ K) (s : List K) : Call (SwSt G σ K) (List K) :=
  (onCurrent c st (fun g t => g.getRef t s)).bind (fun st r => ({ st with reference := some r }, .ok r))

/-- `get_reference_observation` (lines 74–81) -/
def swObs (c : SwCfg G σ K) (st : SwSt G σ K) (s : List K) : Call (SwSt G σ K) (List K) :=
  let r := if st.len ≤ st.k then
      (onCurrent c (swNew c st) (fun g t => g.reset t s st.reference)).bind (fun st r => (st, .ok r.2))
    else onCurrent c st (fun g t => g.getObs t s)
  r.bind (fun st o => ({ st with k := st.k + 1 }, .ok o))

/-- entrywise least / greatest bounds (lines 47–54); bounds of different lengths raise a ValueError (`switchedGen`) -/
def fold1 (f : K → K → K) : List (List K) → List K
  | [] => []
  | a :: l => l.foldl (List.zipWith f) a

/-- `SwitchedReferenceGenerator` with given sub-generators, `__init__` and `set_modules` (lines 11–63). -/
def switchedGen [Min K] [Max K] (c : SwCfg G σ K) : Except Err (RefGen (SwSt G σ K) K) :=
  match c.gens with
  | [] => .error .assertion
  | g :: _ =>
    if ¬ c.gens.all (fun h => decide (h.names = g.names)) then .error .assertion
    else if ¬ c.gens.all (fun h => decide (h.low.length = g.low.length ∧ h.high.length = g.high.length)) then
      .error .value
    else if ¬ c.gens.all (fun h => decide (h.referenced = g.referenced)) then .error .assertion
    else .ok {
      names := g.names
      referenced := g.referenced
      low := fold1 min (c.gens.map (·.low))
      high := fold1 max (c.gens.map (·.high))
      reset := swReset c
      getRef := swRef c
      getObs := swObs c }

/-- `super_episode_length`: a number `n` becomes `(n, n + 1)` (lines 34–35); `integers(a, b)` excludes `b`. -/
inductive SuperLen where
  | num (n : ℤ)
  | pair (a b : ℤ)

def SuperLen.bounds : SuperLen → ℤ × ℤ
  | .num n => (n, n + 1)
  | .pair a b => (a, b)

end GEM.Refs
