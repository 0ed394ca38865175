import Mathlib.Algebra.Order.Field.Basic
import Verif.Model.Basic

/-!
# The environment loop  (`src/gym_electric_motor/core.py`, class `ElectricMotorEnvironment`)

The modules (physical system, reference generator, reward function, constraint monitor) are arbitrary: one record of
functions on a common state `σ`, so they may interact, keep any state and (except where noted) raise.
Callbacks may change the modules (as `RampingLimitMargin` does), but are assumed not to raise and not to call back into
the environment.  Every call the environment makes is recorded in `log`.
-/

namespace GEM.Core

/-- What a callback is told (core.py 722–740). `S` states, `R` references, `A` actions, `K` numbers. -/
inductive CbEvent (A S R K : Type*) where
  | setEnv
  | resetBegin
  | resetEnd (s : S) (r : R)
  | stepBegin (k : ℕ) (a : A)
  | stepEnd (k : ℕ) (s : S) (r : R) (w : K) (terminated : Bool)
  | close

/-- One entry of the chronological log of calls made by the environment. -/
inductive LogEntry (A S R O K : Type*) where
  | cb (i : ℕ) (e : CbEvent A S R K)
  | seed (entropy : ℕ)
  | psReset (s : Except Err S)
  | refReset (s : S) (res : Except Err (R × O))
  | rewReset (s : S) (r : R)
  | simulate (a : A) (s : Except Err S)
  | getRef (s : S) (r : Except Err R)
  | check (s : S) (d : Except Err K)
  | reward (s : S) (r : R) (k : ℕ) (a : A) (d : K) (w : Except Err K)
  | refObs (s : S) (o : Except Err O)

/-- The modules and callbacks the environment is built from. -/
structure Comps (σ A S R O K : Type*) where
  /-- `_seed` with the entropy that is used (core.py 373–385) -/
  seed : ℕ → σ → σ
  psReset : σ → σ × Except Err S
  refReset : σ → S → σ × Except Err (R × O)
  rewReset : σ → S → R → σ
  /-- `physical_system.k` -/
  psK : σ → ℕ
  simulate : σ → A → σ × Except Err S
  getRef : σ → S → σ × Except Err R
  check : σ → S → σ × Except Err K
  reward : σ → S → R → ℕ → A → K → σ × Except Err K
  refObs : σ → S → σ × Except Err O
  /-- `state[self.state_filter]` -/
  observe : S → S
  /-- number of registered callbacks, and the effect the i-th has on the modules -/
  nCb : ℕ
  onCb : ℕ → CbEvent A S R K → σ → σ

/-- The environment object: modules, `_terminated`, and the log. `_truncated` is never written after construction
(core.py 283) and therefore appears as the constant `false`. -/
structure Env (σ A S R O K : Type*) where
  comp : σ
  terminated : Bool
  log : List (LogEntry A S R O K)

/-- What `step` returns (core.py 364–371). -/
structure StepResult (S O K : Type*) where
  obs : S × O
  reward : K
  terminated : Bool
  truncated : Bool

variable {σ A S R O K : Type*} [LE K] [One K] [DecidableLE K]

namespace Env

/-- `_call_callbacks` (core.py 294–298). -/
def fire (C : Comps σ A S R O K) (env : Env σ A S R O K) (e : CbEvent A S R K) : Env σ A S R O K :=
  { env with
    comp := (List.range C.nCb).foldl (fun c i => C.onCb i e c) env.comp
    log := env.log ++ (List.range C.nCb).map (fun i => .cb i e) }

/-- `__init__` as far as it concerns the loop (core.py 281–289). -/
def init (C : Comps σ A S R O K) (c : σ) : Env σ A S R O K :=
  fire C ⟨c, true, []⟩ .setEnv

/-- A module call that is recorded. -/
def call {α : Type*} (env : Env σ A S R O K) (r : σ × Except Err α) (entry : LogEntry A S R O K) :
    Call (Env σ A S R O K) α :=
  ({ env with comp := r.1, log := env.log ++ [entry] }, r.2)

/-- `reset` (core.py 300–319). `entropy` is the seed, or what the operating system supplies for `seed=None`
(core.py 374). -/
def reset (C : Comps σ A S R O K) (env : Env σ A S R O K) (entropy : ℕ) : Call (Env σ A S R O K) (S × O) :=
  let e0 : Env σ A S R O K := { env with comp := C.seed entropy env.comp, log := env.log ++ [.seed entropy] }
  let e1 := fire C e0 .resetBegin
  let e2 := { e1 with terminated := false }
  let r := C.psReset e2.comp
  (call e2 r (.psReset r.2)).bind fun e3 s =>
  let r := C.refReset e3.comp s
  (call e3 r (.refReset s r.2)).bind fun e4 ro =>
  let e5 : Env σ A S R O K := { e4 with comp := C.rewReset e4.comp s ro.1, log := e4.log ++ [.rewReset s ro.1] }
  let e6 := fire C e5 (.resetEnd s ro.1)
  (e6, .ok (C.observe s, ro.2))

/-- Outcome of a `step` call: rejected by the environment's own assertion, an exception of a module, or a result. -/
inductive StepOut (S O K : Type*) where
  | rejected
  | raised (e : Err)
  | done (r : StepResult S O K)

/-- `step` behind the assertion (core.py 342–371). -/
def stepBody (C : Comps σ A S R O K) (env : Env σ A S R O K) (a : A) :
    Call (Env σ A S R O K) (StepResult S O K) :=
  let e0 := fire C env (.stepBegin (C.psK env.comp) a)
  let r := C.simulate e0.comp a
  (call e0 r (.simulate a r.2)).bind fun e1 s =>
  let r := C.getRef e1.comp s
  (call e1 r (.getRef s r.2)).bind fun e2 ref =>
  let r := C.check e2.comp s
  (call e2 r (.check s r.2)).bind fun e3 d =>
  let r := C.reward e3.comp s ref (C.psK e3.comp) a d
  (call e3 r (.reward s ref (C.psK e3.comp) a d r.2)).bind fun e4 w =>
  let e5 := { e4 with terminated := decide (1 ≤ d) }
  let r := C.refObs e5.comp s
  (call e5 r (.refObs s r.2)).bind fun e6 o =>
  let e7 := fire C e6 (.stepEnd (C.psK e6.comp) s ref w e6.terminated)
  (e7, .ok ⟨(C.observe s, o), w, e7.terminated, false⟩)

/-- `step` (core.py 328–371). -/
def step (C : Comps σ A S R O K) (env : Env σ A S R O K) (a : A) : Env σ A S R O K × StepOut S O K :=
  if env.terminated then (env, .rejected)
  else
    let r := stepBody C env a
    (r.1, match r.2 with | .ok x => .done x | .error e => .raised e)

end Env

/-- Calls of the public interface. `setRef`, `setReward`: assignment of a new module (core.py 133–161), whatever its
effect on the common state. -/
inductive Op (σ A : Type*) where
  | reset (entropy : ℕ)
  | step (a : A)
  | setRef (f : σ → σ)
  | setReward (f : σ → σ)
  | close

/-- What the caller sees. -/
inductive Out (S O K : Type*) where
  | resetOk (o : S × O)
  | resetRaised (e : Err)
  | step (r : Env.StepOut S O K)
  | none

/-- One call (core.py 133–161, 300–371, 387–392; `close` of the modules is not modelled). -/
def apply (C : Comps σ A S R O K) (env : Env σ A S R O K) : Op σ A → Env σ A S R O K × Out S O K
  | .reset s =>
    let r := env.reset C s
    (r.1, match r.2 with | .ok o => .resetOk o | .error e => .resetRaised e)
  | .step a => let r := env.step C a; (r.1, .step r.2)
  | .setRef f => ({ env with comp := f env.comp, terminated := true }, .none)
  | .setReward f => ({ env with comp := f env.comp, terminated := true }, .none)
  | .close => (env.fire C .close, .none)

/-- A history of calls, with what the caller saw. -/
def run (C : Comps σ A S R O K) : Env σ A S R O K → List (Op σ A) → Env σ A S R O K × List (Op σ A × Out S O K)
  | env, [] => (env, [])
  | env, op :: ops =>
    let r := apply C env op
    let rs := run C r.1 ops
    (rs.1, (op, r.2) :: rs.2)

/-! ## State filter (core.py 168–190, 273–278) -/

/-- `names.index(s)`: position of the first occurrence, `ValueError` if absent. -/
def indexOf {N : Type*} [DecidableEq N] (names : List N) (s : N) : Except Err ℕ :=
  if s ∈ names then .ok (names.idxOf s) else .error .value

/-- `state_filter or names` (an empty filter means "no filter"), then the positions (core.py 273–274). -/
def stateFilter {N : Type*} [DecidableEq N] (names : List N) (filter : Option (List N)) : Except Err (List ℕ) :=
  let f := match filter with
    | none => names
    | some [] => names
    | some l => l
  f.mapM (indexOf names)

/-- numpy indexing with a list of positions, `x[idx]`. -/
def take {α : Type*} [Inhabited α] (x : List α) (idx : List ℕ) : List α := idx.map (fun i => x.getD i default)

end GEM.Core
