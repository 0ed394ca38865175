import Mathlib.Algebra.Module.Defs
import Mathlib.Logic.Function.Basic
import Verif.Model.Solvers
import Verif.Model.Systems
import Verif.Model.Utils
import Verif.Model.Wrappers

/-!
# Objects that are handed on without a copy

* the array `_system_eq_placeholder`, which `_system_equation` overwrites and returns in every call
  (physical_systems.py 205–236);
* a `SquaredConstraint` in the default arguments of an environment class, which all environments of the class share
  (e.g. cont_cc_pmsm_env.py 106);
* the actions in the deque of `DeadTimeProcessor` (dead_time_processor.py 83–85).

The rest of the model passes values; here the identity of the objects is modelled.
-/

namespace GEM.Alias

open GEM GEM.Wrap

/-! ## Derivatives -/

/-- A solver as it sees the right-hand side: it can call it, which gives an array object (a number here), and read the content
of such an object, at once or later. -/
inductive Prog (K Y : Type) where
  | done (y : Y)
  | eval (t : K) (y : Y) (next : ℕ → Prog K Y)
  | read (h : ℕ) (next : Y → Prog K Y)

/-- Execution with a right-hand side that returns a new array in every call. `store`: the arrays returned so far. `none`: an
object is read that does not exist. -/
def Prog.fresh {K Y : Type} (f : K → Y → Y) : List Y → Prog K Y → Option Y
  | _, .done y => some y
  | store, .eval t y next => (next store.length).fresh f (store ++ [f t y])
  | store, .read h next =>
    match store[h]? with
    | some v => (next v).fresh f store
    | none => none

/-- Execution with `_system_equation` (physical_systems.py 205–236): all calls return the one array `_system_eq_placeholder`.
`n`: number of calls so far; `ph`: the array, with its present content, if it exists. -/
def Prog.system {K Y : Type} (rhs : Option Y → K → Y → Y) : ℕ → Option Y → Prog K Y → Option Y
  | _, _, .done y => some y
  | n, ph, .eval t y next => (next n).system rhs (n + 1) (some (rhs ph t y))
  | n, ph, .read h next =>
    if h < n then
      match ph with
      | some v => (next v).system rhs n ph
      | none => none
    else none

section

variable {K Y : Type} [Field K] [AddCommGroup Y] [Module K Y]

/-- the loop of `EulerSolver._integrate_nsteps` (solvers.py 114–119): every array is used within the expression that calls the
right-hand side -/
def nstepsProg (tau : K) : ℕ → K → Y → Prog K Y
  | 0, _, state => .done state
  | n + 1, currentT, state =>
    .eval (currentT + tau) state fun h => .read h fun d => nstepsProg tau n (currentT + tau) (state + tau • d)

/-- `EulerSolver.integrate` (solvers.py 99–136) as a program; not for `nsteps = 0` -/
def eulerProg (s : Solver.Euler K Y) (t : K) : Prog K Y :=
  if s.nsteps = 1 then .eval s.t s.y fun h => .read h fun d => .done (s.y + (t - s.t) • d)
  else nstepsProg ((t - s.t) / s.nsteps) s.nsteps t s.y

/-- Not part of the repository: Heun's method as one would write it as a custom `OdeSolver`,
`k1 = f(t, y); k2 = f(t + tau, y + tau * k1); y + tau / 2 * (k1 + k2)`. -/
def heunProg (tau t : K) (y : Y) : Prog K Y :=
  .eval t y fun a => .read a fun k =>
    .eval (t + tau) (y + tau • k) fun b => .read a fun k1 => .read b fun k2 => .done (y + (tau / 2) • (k1 + k2))

/-- Beginning of `scipy.integrate.solve_ivp` with an explicit Runge-Kutta method and no `first_step`, which
`ScipySolveIvpSolver.integrate` (solvers.py 207–219) calls.  (scipy is not part of the repository; this follows
scipy/integrate/_ivp: `self.f = self.fun(t, y)`; `select_initial_step`, which evaluates the right-hand side after a small
step of size `trial` and compares the derivatives; then the first step with `self.f` as its first stage.)  `trial`, `size`:
the choices of the sizes; `stages`: the remaining stages, which are copied into an array each. -/
def ivpProg (trial : Y → K) (size : Y → Y → K) (stages : K → Y → Prog K Y) (t : K) (y : Y) : Prog K Y :=
  .eval t y fun a => .read a fun f0 =>
    .eval (t + trial f0) (y + trial f0 • f0) fun b => .read b fun f1 => .read a fun f0' =>
      .read a fun k => stages (size f0' f1) k

end

/-! ## Constraints -/

/-- a system as `SquaredConstraint.set_modules` sees it: `state_names`, `state_space.high`, `limits` -/
structure Layout (K : Type) where
  names : List String
  high : List K
  limits : List K

/-- Environments of one class are made one after the other, all with the one default constraint (attributes `m`; its observed
states `states`): each construction calls `set_modules` on it (core.py `ConstraintMonitor.set_modules`). -/
def makeAll {K : Type} [Field K] [LinearOrder K] (states : List String) :
    List (Layout K) → List ℕ × List K × Bool → Except Err (List ℕ × List K × Bool)
  | [], m => .ok m
  | l :: ls, _ =>
    match Constr.squaredModules l.names l.high l.limits states with
    | .ok m => makeAll states ls m
    | .error e => .error e

/-- `LimitConstraint.set_modules` (constraints.py 60–68) with the attribute it overwrites: `"all_states"` is replaced by the
names of the system for good. -/
def limitModules {K : Type} [Field K] [LinearOrder K] (lower : String → String) (names obs : List String) :
    Except Err (List String × List Bool) :=
  match Constr.limitMask (K := K) lower "all_states" names (some obs) with
  | .ok mask => .ok (if "all_states" ∈ obs then names else obs, mask)
  | .error e => .error e

/-! ## Actions -/

section

variable {σ A : Type}

/-- A system that is handed action objects (numbers) and reads their content, which is part of the state, when it is called.
(It makes its own copy: the converters clip or convert the action.) -/
def deref (s : PSys σ A) : PSys (σ × (ℕ → A)) ℕ where
  reset st := (((s.reset st.1).1, st.2), (s.reset st.1).2)
  simulate st r := (((s.simulate st.1 (st.2 r)).1, st.2), (s.simulate st.1 (st.2 r)).2)
  names := s.names
  pos := s.pos
  limits := s.limits
  nominal := s.nominal
  low := s.low
  high := s.high
  tau := s.tau
  deadTime := s.deadTime

/-- An agent at work: in every step it writes its action into an array and hands over the array; what `simulate` of the
`DeadTimeProcessor` (dead_time_processor.py 75–85) returns. The deque holds the arrays (line 84: `appendleft(action)`, without
a copy). -/
def act (n : ℕ) (ra : ℕ → List ℕ) (s : PSys σ A) :
    (σ × (ℕ → A)) × DeadSt ℕ → List (ℕ × A) → List (Except Err (List ℝ))
  | _, [] => []
  | st, (r, a) :: l =>
    let x := (deadTime n ra (deref s)).simulate ((st.1.1, Function.update st.1.2 r a), st.2) r
    x.2 :: act n ra s x.1 l

end

end GEM.Alias
