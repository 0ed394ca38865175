import Mathlib.Data.Nat.Notation
import Verif.Model.Basic

/-!
# Control loop and factory of the controllers  (`src/gem_controllers/gem_controller.py`)
-/

namespace GEM.Run

open GEM

/-! ## `control_environment` -/

/-- An environment and a controller, seen from `control_environment`: `o` are observations (state and reference), `a` actions.
`envStep` also tells whether the episode has ended (terminated or truncated).  Calls that raise are not modelled: the loop ends
with the exception. -/
structure Parts (σ κ o a : Type) where
  envReset : σ → σ × o
  envStep : σ → a → σ × o × Bool
  ctlReset : κ → κ
  control : κ → o → κ × a

/-- What happens during the loop, in the order of time. -/
inductive Ev (o : Type)
  /-- `env.reset()` has returned this observation -/
  | envReset (obs : o)
  | ctlReset
  /-- `control(seen)` and `env.step` returning `obs` -/
  | step (seen obs : o) (ended : Bool)
deriving DecidableEq

variable {σ κ o a : Type}

/-- `current_episode_length >= max_episode_length`; `none` is `np.inf`, the default -/
def reached (limit : Option ℕ) (count : ℕ) : Bool :=
  match limit with
  | none => false
  | some m => decide (m ≤ count)

/-- the body of the loop, `n` times (gem_controller.py 159–171; rendering and the block diagram left out); `count` is
`current_episode_length` -/
def loop (p : Parts σ κ o a) (limit : Option ℕ) : ℕ → σ → κ → o → ℕ → List (Ev o)
  | 0, _, _, _, _ => []
  | n + 1, env, ctl, obs, count =>
    let c := p.control ctl obs
    let e := p.envStep env c.2
    if e.2.2 || reached limit count then
      let r := p.envReset e.1
      .step obs e.2.1 e.2.2 :: .envReset r.2 :: .ctlReset :: loop p limit n r.1 (p.ctlReset c.1) r.2 (0 + 1)
    else .step obs e.2.1 e.2.2 :: loop p limit n e.1 c.1 e.2.1 (count + 1)

/-- `control_environment` (gem_controller.py 144–173) -/
def controlEnvironment (p : Parts σ κ o a) (limit : Option ℕ) (n : ℕ) (env : σ) (ctl : κ) : List (Ev o) :=
  let r := p.envReset env
  .envReset r.2 :: .ctlReset :: loop p limit n r.1 (p.ctlReset ctl) r.2 0

/-! ## `make` -/

/-- motors an environment id can name -/
inductive MotorId
  | seriesDc | shuntDc | permExDc | extExDc | pmsm | synRM | eesm | scim | dfim
deriving DecidableEq

/-- control tasks -/
inductive Task
  | cc | tc | sc
deriving DecidableEq

/-- entries of the registry of base controllers (base_controllers/utils.py 9–15) -/
inductive BaseId
  | p | i | pi | pid | threePoint
deriving DecidableEq

/-- Parameters of a python function (without `self`): names, and whether `**kwargs` is among them. -/
structure Sig where
  params : List String
  varKw : Bool

/-- binding of the arguments of a call with `pos` positional arguments and the keywords `kws`; all parameters beyond the first
two have defaults here -/
def Sig.bind (s : Sig) (pos : ℕ) (kws : List String) : Except Err Unit :=
  if s.params.length < pos then .error .type
  else if kws.any fun k => (s.params.take pos).contains k then .error .type
  else if !s.varKw && kws.any fun k => !s.params.contains k then .error .type
  else .ok ()

/-- signature of `tune` (p_controller.py 83, pi_controller.py 40, three_point_controller.py 96, base_controller.py 33) -/
def tuneSig : BaseId → Sig
  | .p => ⟨["env", "env_id", "a"], false⟩
  | .i => ⟨["env", "env_id"], true⟩
  | .pi => ⟨["env", "env_id", "a", "t_n"], false⟩
  | .pid => ⟨["env", "env_id", "a", "t_n"], false⟩
  | .threePoint => ⟨["env", "env_id"], true⟩

/-- What `make` depends on besides its arguments: whether a flux observer provides `psi_abs` and `psi_angle`, whether numpy
still has `np.complex`, and what the tuning of the operation point selection of the synchronous motors gives. -/
structure Setting where
  observer : Bool
  npComplex : Bool
  syncTune : Except Err Unit

/-- motors with direct current (parameter_reader.py 5) -/
def MotorId.dc : MotorId → Bool
  | .seriesDc | .shuntDc | .permExDc | .extExDc => true
  | _ => false

/-- `PICurrentController.tune` (pi_current_controller.py 121–144): tables of the parameter reader, which have no DFIM;
`psi_angle` and `psi_abs` in the state names (abc_transformation.py 72, emf_feedforward_ind.py 62); then
`tune(env, env_id, a)` of the base controller, with three positional arguments -/
def currentTune (s : Setting) (m : MotorId) (b : BaseId) : Except Err Unit :=
  match m with
  | .dfim => if s.observer then .error .key else .error .value
  | .scim => if s.observer then (tuneSig b).bind 3 [] else .error .value
  | _ => (tuneSig b).bind 3 []

/-- tuning of the operation point selection; the one of the EESM uses `np.complex` (eesm_ops.py), the one of the SCIM has
nothing that can fail once `psi_abs` is there -/
def opsTune (s : Setting) (m : MotorId) : Except Err Unit :=
  match m with
  | .pmsm | .synRM => s.syncTune
  | .eesm => if s.npComplex then .ok () else .error .attribute
  | .scim => if s.observer then .ok () else .error .value
  | .dfim => .error .key
  | _ => .ok ()

/-- `action_range[0]` of the clipping stage of the torque controller (torque_controller.py 85–91, 114–116): an empty list for
`SquaredClippingStage` (squared_clipping_stage.py 29) -/
def actionRange (m : MotorId) : Except Err Unit :=
  match m with
  | .pmsm | .synRM | .scim | .dfim => .error .index
  | _ => .ok ()

/-- `TorqueController.tune` (torque_controller.py 100–120) -/
def torqueTune (s : Setting) (m : MotorId) (b : BaseId) : Except Err Unit :=
  match currentTune s m b with
  | .error e => .error e
  | .ok _ =>
    match opsTune s m with
    | .error e => .error e
    | .ok _ => actionRange m

/-- `min(self._torque_controller.t_n)` (pi_speed_controller.py 101): without an integral gain `t_n` is the time constant of the
current loop, for the permanently excited motor an array without dimension (pi_current_controller.py 60–64,
parameter_reader.py: `tau_current_loop_reader`) -/
def minTn (m : MotorId) (b : BaseId) : Except Err Unit :=
  match b, m with
  | .p, .permExDc => .error .type
  | _, _ => .ok ()

/-- `tune(env, env_id, t_n=t_n, a=a)` of the base controller of the speed (pi_speed_controller.py 102): the PID controller
forgets `t_n` and calculates `a * None` (pid_controller.py, pi_controller.py 94); the three point controller looks for a state
`'reference'` (three_point_controller.py: `_tune_speed_controller`) -/
def speedBaseTune (b : BaseId) : Except Err Unit :=
  match (tuneSig b).bind 2 ["t_n", "a"] with
  | .error e => .error e
  | .ok _ =>
    match b with
    | .pid => .error .type
    | .threePoint => .error .value
    | _ => .ok ()

/-- `PISpeedController.tune` (pi_speed_controller.py 86–102) -/
def speedTune (s : Setting) (m : MotorId) (bc bs : BaseId) : Except Err Unit :=
  match torqueTune s m bc with
  | .error e => .error e
  | .ok _ =>
    match minTn m bc with
    | .error e => .error e
    | .ok _ => speedBaseTune bs

/-- `GemController.make` (gem_controller.py 28–99), as far as it may fail: the operation point selection is chosen before the
tuning (torque_controller.py 83, no entry for the DFIM), then `adapter.tune`.  (The block diagram, which needs another
package, and the plots are left out.) -/
def make (s : Setting) (t : Task) (m : MotorId) (bc bs : BaseId) : Except Err Unit :=
  match t with
  | .cc => currentTune s m bc
  | .tc => if m = .dfim then .error .key else torqueTune s m bc
  | .sc => if m = .dfim then .error .key else speedTune s m bc bs

end GEM.Run
