import Verif.Model.Utils

/-!
# Initial states of motors and loads

`src/gym_electric_motor/physical_systems/electric_motors/electric_motor.py:100-285`,
`synchronous_motor.py:125-131`, `induction_motor.py:176-185`,
`src/gym_electric_motor/physical_systems/mechanical_loads/mechanical_load.py:84-186`.

Dictionaries are lists of items in insertion order.  Random draws are parameters: `draws` is what
`random_generator.uniform(size=n)` returns, `rvs` is `truncnorm.rvs` as a function of all its arguments — it is called with
an integer `random_state` and therefore *is* a function of its arguments.
-/

namespace GEM.Init

open GEM.Utils

/-- A dictionary from names to numbers. -/
abbrev Dict (K : Type) := List (String × K)

variable {K : Type} [Field K] [LinearOrder K]

/-- `d[k]` -/
def get (d : Dict K) (k : String) : Except Err K :=
  match lookup d k with
  | some v => .ok v
  | none => .error .key

/-- Elementwise operation on two 1-d arrays with numpy broadcasting. -/
def bzip (f : K → K → K) (xs ys : List K) : Except Err (List K) :=
  if xs.length = ys.length then .ok (List.zipWith f xs ys)
  else if xs.length = 1 then .ok (ys.map (f (xs.headD 0)))
  else if ys.length = 1 then .ok (xs.map (fun x => f x (ys.headD 0)))
  else .error .value

/-- `(xs <= ys).all()` with broadcasting. -/
def ball (xs ys : List K) : Except Err Bool :=
  (bzip (fun x y => if x ≤ y then 1 else 0) xs ys).map (fun l => l.all (fun b => b = 1))

/-- Values of `random_init`. -/
inductive Dist
  | uniform
  | normal
  | other
  deriving DecidableEq

/-- The instance attributes that decide about initial states: `_default_initializer["states"]`, the entries of
`_initializer`. -/
structure Cfg (K : Type) where
  defaults : Dict K
  states : Option (Dict K)
  interval : Option (List (K × K))
  dist : Option Dist
  mu : Option K
  sigma : Option K

/-- Clipping of the nominal boundaries to the user defined interval (electric_motor.py:227-229,
mechanical_load.py:124-126). -/
def clipBounds (interval : Option (List (K × K))) (lower upper : List K) : Except Err (List K × List K) :=
  match interval with
  | none => .ok (lower, upper)
  | some iv => do
    let l ← bzip max lower (iv.map Prod.fst)
    let u ← bzip min upper (iv.map Prod.snd)
    .ok (l, u)

/-- Bounds of DC and synchronous motors (electric_motor.py:214-229): nominal values, and nominal values times the lower end
of the state space at the position of the state. -/
def motorBounds (nominal : Dict K) (positions : List (String × ℕ)) (low : List K) (interval : Option (List (K × K)))
    (keys : List String) : Except Err (List K × List K) := do
  let upper ← keys.mapM (get nominal)
  let idx ← keys.mapM (fun k => match lookup positions k with | some i => .ok i | none => .error Err.key)
  let lows ← idx.mapM (fun i => match low[i]? with | some x => .ok x | none => .error Err.index)
  let lower ← bzip (· * ·) upper lows
  clipBounds interval lower upper

/-- Bounds of induction motors (electric_motor.py:199-213): absolute initial limits, symmetric. -/
def inductionBounds (initialLimits : Dict K) (interval : Option (List (K × K))) (keys : List String) :
    Except Err (List K × List K) := do
  let vals ← keys.mapM (get initialLimits)
  let upper := vals.map abs
  let lower ← bzip (· * ·) upper [-1, -1, -1, -1, -1]
  clipBounds interval lower upper

/-- Python's `x or d` for an optional number: `None` and `0` are falsy. -/
def orElse (x : Option K) (d : K) : K :=
  match x with
  | none => d
  | some v => if v = 0 then d else v

/-- Python's `random_params[0] or (upper - lower) / 2 + lower`. -/
def meanOf (mu : Option K) (lower upper : List K) : List K :=
  match mu with
  | none => List.zipWith (fun l u => (u - l) / 2 + l) lower upper
  | some v => if v = 0 then List.zipWith (fun l u => (u - l) / 2 + l) lower upper else List.replicate lower.length v

/-- `truncnorm.rvs(a, b, loc, scale, size, random_state)`. -/
abbrev Rvs (K : Type) := List K → List K → List K → K → ℕ → ℕ → List K

/-- New initial values (electric_motor.py:230-270, mechanical_load.py:130-167), for given bounds; `cur` is
`_initial_states`, `pool` is `seed_sequence.pool[0]`. -/
def drawValues (c : Cfg K) (rvs : Rvs K) (pool : ℕ) (draws : List K) (lower upper : List K) (cur : Dict K) :
    Except Err (List K) :=
  match c.dist with
  | some .uniform => do
    let w ← bzip (· - ·) upper lower
    let s ← bzip (· * ·) w draws
    bzip (· + ·) s lower
  | some .normal =>
    let m := meanOf c.mu lower upper
    let sg := orElse c.sigma 1
    .ok (rvs (List.zipWith (fun l m => (l - m) / sg) lower m) (List.zipWith (fun u m => (u - m) / sg) upper m) m sg
      cur.length pool)
  | some .other => .error .notImplemented
  | none => do
    let vals := cur.map Prod.snd
    let a ← ball lower vals
    let b ← ball vals upper
    if a && b then .ok vals else .error .generic

/-- Writing the values back into `_initial_states` by enumeration of its keys. -/
def writeBack (cur : Dict K) (vals : List K) : Dict K := dictUpdate cur (List.zip (cur.map Prod.fst) vals)

/-- `ElectricMotor.__init__` (electric_motor.py:134-137): `_initial_states` after construction.
`_initializer["states"]` is the user's dictionary or, if that key is not given, the class default. -/
def motorInitial (c : Cfg K) : Dict K := dictUpdate [] (c.states.getD [])

/-- `ElectricMotor.initialize` (electric_motor.py:179-268): new `_initial_states`.  `bounds` are `motorBounds` or
`inductionBounds` for the keys of the dictionary. -/
def motorInitialize (c : Cfg K) (bounds : List String → Except Err (List K × List K)) (rvs : Rvs K) (pool : ℕ)
    (draws : List K) (cur : Dict K) : Except Err (Dict K) := do
  let cur := dictUpdate (dictUpdate cur c.defaults) (c.states.getD [])
  let b ← bounds (cur.map Prod.fst)
  let vals ← drawValues c rvs pool draws b.1 b.2 cur
  .ok (writeBack cur vals)

/-- `ElectricMotor.reset`, `SynchronousMotor.reset`, `InductionMotor.reset` (electric_motor.py:270-285,
synchronous_motor.py:125-131, induction_motor.py:176-185): new `_initial_states` and the returned state vector.
`nZero` is the length of the zero vector returned for an empty `states`. -/
def motorReset (c : Cfg K) (bounds : List String → Except Err (List K × List K)) (rvs : Rvs K) (pool : ℕ)
    (draws : List K) (nZero : ℕ) (cur : Dict K) : Except Err (Dict K × List K) :=
  if (c.states.getD []).isEmpty then .ok (cur, List.replicate nZero 0)
  else do
    let cur' ← motorInitialize c bounds rvs pool draws cur
    .ok (cur', cur'.map Prod.snd)

/-- Several episodes: the results of successive resets, each with its own draws. -/
def motorResets (c : Cfg K) (bounds : List String → Except Err (List K × List K)) (rvs : Rvs K) (pool : ℕ) (nZero : ℕ) :
    List (List K) → Dict K → List (Except Err (List K))
  | [], _ => []
  | d :: ds, cur =>
    match motorReset c bounds rvs pool d nZero cur with
    | .ok r => .ok r.2 :: motorResets c bounds rvs pool nZero ds r.1
    | .error e => .error e :: motorResets c bounds rvs pool nZero ds cur

/-- Positions of the states in the ODE vector of the motors
(here dc_motor.py:57-59). -/
def dcOdeNames : List String := ["i_a", "i_e"]
/-- PMSM and SynRM (synchronous_motor.py:87-89: `I_SD_IDX = 0`, `I_SQ_IDX = 1`, `EPSILON_IDX = 2`). -/
def syncOdeNames : List String := ["i_sd", "i_sq", "epsilon"]
/-- EESM (externally_excited_synchronous_motor.py:92-95). -/
def eesmOdeNames : List String := ["i_sd", "i_sq", "i_e", "epsilon"]
/-- Induction motors (induction_motor.py:90-94). -/
def imOdeNames : List String := ["i_salpha", "i_sbeta", "psi_ralpha", "psi_rbeta", "epsilon"]

/-- Class defaults of PMSM and SynRM (permanent_magnet_synchronous_motor.py:97-102,
synchronous_reluctance_motor.py:107-112). -/
def syncDefaults : Dict K := [("i_sq", 0), ("i_sd", 0), ("epsilon", 0)]
/-- Class defaults of the EESM (externally_excited_synchronous_motor.py:115-120). -/
def eesmDefaults : Dict K := [("i_sq", 0), ("i_sd", 0), ("i_e", 0), ("epsilon", 0)]
/-- Class defaults of the DC motors with two windings (dc_motor.py:75-80). -/
def dcDefaults : Dict K := [("i_a", 0), ("i_e", 0)]
/-- Class defaults of the induction motors (induction_motor.py:121-132). -/
def imDefaults : Dict K :=
  [("i_salpha", 0), ("i_sbeta", 0), ("psi_ralpha", 0), ("psi_rbeta", 0), ("epsilon", 0)]

end GEM.Init
