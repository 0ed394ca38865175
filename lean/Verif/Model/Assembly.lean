import Verif.Model.Env
import Verif.Model.Systems
import Verif.Model.References
import Verif.Model.Reward

/-!
# A whole environment  (`src/gym_electric_motor/core.py`, `ElectricMotorEnvironment.__init__`, lines 225–292)

The modelled components put together: a physical system (`Model/Systems.lean`), a reference generator (`Model/References.lean`), a
weighted sum of errors (`Model/Reward.lean`), the constraints named in the `constraints` argument (`Model/Utils.lean`) and the state
filter, as modules of the environment loop (`Model/Env.lean`).

Not part of it: physical system wrappers (`Model/WrappedEnv.lean`), callbacks that change the modules, and constraints that are user
functions.
-/

namespace GEM.Assembly

open GEM GEM.Core GEM.Sys GEM.Refs GEM.Reward GEM.Utils GEM.Constr

/-- The arguments of the environment.

* `p`, `f`, `rep`, `tau`, `limits`: the physical system; `names`, `low`, `high`: its `state_names` and `state_space`;
* `start`: the draw of the initial ODE state in `physical_system.reset` from the random generators of motor and load;
* `gen`: the reference generator, after `set_modules`;
* `seedSystem`, `seedRef`: effect of `_seed` on the random generators (core.py 373–385);
* `lower`: `str.lower`; `allStates`: the name that stands for all states (constraints.py 56);
* `wse`: the reward function; `limited`: state names in the `constraints` argument; `squares`: states of its `SquaredConstraint`s;
* `filter`: the `state_filter` argument; `nCb`: number of callbacks, which only look. -/
structure Setup (Y U A S C P G τ : Type) where
  p : Parts ℝ Y U A S C P
  f : Frame ℝ Y U A
  rep : Y → List ℝ → List ℝ → Except Err (List ℝ)
  tau : ℝ
  limits : List ℝ
  names : List String
  low : List ℝ
  high : List ℝ
  start : G → G × Y
  seedSystem : ℕ → G → G
  gen : RefGen τ ℝ
  seedRef : ℕ → τ → τ
  lower : String → String
  allStates : String
  wse : Wse String
  limited : List String
  squares : List (List String)
  filter : Option (List String)
  nCb : ℕ

/-- Attributes of the modules: physical system, its random generators, reference generator. -/
structure World (S C P G τ : Type) where
  sys : St ℝ S C P
  draws : G
  ref : τ

variable {Y U A S C P G τ : Type}

/-- The numbers among the rewards.  Rewards that are no numbers (C79) have no place in the environment loop; they count as exceptions
here. -/
def number : Except Err Fl → Except Err ℝ
  | .ok (.fin x) => .ok x
  | .ok _ => .error .value
  | .error e => .error e

/-- The modules of the environment, given the reward function and the monitor after their `set_modules`, and the positions of the
state filter. -/
noncomputable def comps (c : Setup Y U A S C P G τ) (w : Wse String) (m : Monitor (List ℝ) ℝ) (idx : List ℕ) :
    Comps (World S C P G τ) A (List ℝ) (List ℝ) (List ℝ) ℝ where
  seed n x := { x with draws := c.seedSystem n x.draws, ref := c.seedRef n x.ref }
  psReset x :=
    let d := c.start x.draws
    let r := reset c.p c.rep c.limits x.sys d.2
    ({ x with draws := d.1, sys := r.1 }, r.2)
  refReset x s :=
    let r := c.gen.reset x.ref s none
    ({ x with ref := r.1 }, r.2)
  rewReset x _ _ := x
  psK x := x.sys.k
  simulate x a :=
    let r := simulate c.p c.f c.tau c.limits x.sys a
    ({ x with sys := r.1 }, r.2)
  getRef x s :=
    let r := c.gen.getRef x.ref s
    ({ x with ref := r.1 }, r.2)
  check x s := (x, m.check s)
  reward x s r _ _ d := (x, number (Reward.reward w s r d))
  refObs x s :=
    let r := c.gen.getObs x.ref s
    ({ x with ref := r.1 }, r.2)
  observe s := take s idx
  nCb := c.nCb
  onCb _ _ x := x

/-- `__init__` (core.py 254–278): monitor, reward function and state filter after the announcement of the modules.  The names of the
`SquaredConstraint`s are looked up in `set_modules` (constraints.py 91–94). -/
noncomputable def modules (c : Setup Y U A S C P G τ) : Except Err (Wse String × Monitor (List ℝ) ℝ × List ℕ) :=
  match c.squares.mapM (squaredModules c.names c.high c.limits) with
  | .error e => .error e
  | .ok qs =>
    match envMonitor c.lower c.allStates c.names (c.limited.map .name ++ qs.map fun q => .constr (squaredCall q)) with
    | .error e => .error e
    | .ok m =>
      match setModules c.lower c.wse ⟨c.names, c.low, c.high, c.gen.referenced⟩ with
      | .error e => .error e
      | .ok w =>
        match stateFilter c.names c.filter with
        | .error e => .error e
        | .ok idx => .ok (w, m, idx)

/-- The environment loop of the assembled environment. -/
noncomputable def build (c : Setup Y U A S C P G τ) : Except Err (Comps (World S C P G τ) A (List ℝ) (List ℝ) (List ℝ) ℝ) :=
  (modules c).map fun x => comps c x.1 x.2.1 x.2.2

end GEM.Assembly
