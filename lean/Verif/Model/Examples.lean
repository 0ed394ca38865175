import Verif.Model.Env
import Verif.Model.Wrappers

/-!
# Classes of the example notebooks and the grid example

`examples/environment_features/GEM_cookbook.ipynb` (cookbook), `examples/environment_features/scim_ideal_grid_simulation.py`,
`examples/reinforcement_learning_controllers/stable_baselines3_ddpg_pmsm_dq_current_control.ipynb` (DDPG) and
`…/stable_baselines3_dqn_disc_pmsm_example.ipynb` (DQN).  Lines are those of the files.  Exact arithmetic; `nan` of `np.mean([])` is `none`.
The agents and their training are not modelled, nor are paths and files.
-/

namespace GEM.Examples

open GEM GEM.Wrap GEM.Core

noncomputable section

variable {σ A : Type}

/-! ## `CurrentVectorProcessor` (cookbook, lines 792-851) -/

/-- `_get_current_abs` appended to the state (lines 829-851). -/
def withAbs (d q : ℕ) (v : List ℝ) : Except Err (List ℝ) := do
  let x ← Wrap.getE v d
  let y ← Wrap.getE v q
  .ok (v ++ [√(x ^ 2 + y ^ 2)])

/-- `set_physical_system` (lines 800-827) and the rest of the class.  Both positions are those of `"i_sq"` (lines 816-817). -/
def currentVector (s : PSys σ A) : Except Err (PSys σ A) := do
  let q ← Wrap.indexOf s.names "i_sq"
  let d ← Wrap.indexOf s.names "i_sq"
  let ld ← Wrap.getE s.limits d
  let lq ← Wrap.getE s.limits q
  let nd ← Wrap.getE s.nominal d
  let nq ← Wrap.getE s.nominal q
  .ok { s with
    reset := fun st => post (s.reset st) (withAbs d q)
    simulate := fun st a => post (s.simulate st a) (withAbs d q)
    names := s.names ++ ["i_abs"]
    pos := fun k => if k = "i_abs" then some ((s.names ++ ["i_abs"]).idxOf "i_abs") else s.pos k
    limits := s.limits ++ [√((ld ^ 2 + lq ^ 2) / 2)]
    nominal := s.nominal ++ [√((nd ^ 2 + nq ^ 2) / 2)]
    low := s.low ++ [-1]
    high := s.high ++ [1] }

/-! ## `MyConstraint` (cookbook, lines 552-570) -/

/-- `MyConstraint.__call__` for the value of `i_sd` -/
def myConstraint (x : ℝ) : ℝ := 2 * min (max x 0) (1 / 2)

/-! ## `FeatureWrapper` (DQN, lines 156-207) -/

/-- `observation` (lines 194-207) -/
def feature (e d q : ℕ) (v : List ℝ) : Except Err (List ℝ) := do
  let x ← Wrap.getE v e
  let iq ← Wrap.getE v q
  let id ← Wrap.getE v d
  .ok (v.take e ++ [Real.cos (x * Real.pi), Real.sin (x * Real.pi)] ++ v.drop (e + 1) ++ [iq ^ 2 + id ^ 2])

/-- lower bounds of the new observation space (lines 183-186) -/
def featureLow (e : ℕ) (low : List ℝ) : List ℝ := low.take e ++ [-1] ++ low.drop e ++ [0]
/-- upper bounds (lines 187-190) -/
def featureHigh (e : ℕ) (high : List ℝ) : List ℝ := high.take e ++ [1] ++ high.drop e ++ [1]

/-! ## `LastActionWrapper` (DDPG, lines 161-182) -/

/-- The wrapper around an environment of which only the observations are shown (reward, flags and info are passed on); `n` is
`action_space.shape[0]`.  The second component is `last_action`. -/
def lastAction (n : ℕ) (s : PSys σ (List ℝ)) : PSys (σ × List ℝ) (List ℝ) :=
  { reset := fun st =>
      let r := s.reset st.1
      match r.2 with
      | .error e => ((r.1, st.2), .error e)
      | .ok v => ((r.1, List.replicate n 0), .ok (v ++ List.replicate n 0))
    simulate := fun st a =>
      let r := s.simulate st.1 a
      match r.2 with
      | .error e => ((r.1, st.2), .error e)
      | .ok v => ((r.1, a), .ok (v ++ a))
    names := s.names
    pos := s.pos
    limits := s.limits
    nominal := s.nominal
    low := s.low ++ List.replicate n (-1)
    high := s.high ++ List.replicate n 1
    tau := s.tau
    deadTime := s.deadTime }

/-! ## `RewardLogger` (DQN, lines 132-153; cookbook, lines 703-722) -/

/-- `step_rewards` and `mean_episode_rewards` -/
structure Logger where
  rewards : List ℝ
  means : List (Option ℝ)

/-- `__init__` (DQN, lines 134-136; cookbook, lines 705-707) -/
def Logger.new : Logger := ⟨[], []⟩

/-- `np.mean` -/
def mean (l : List ℝ) : Option ℝ := if l = [] then none else some (l.sum / l.length)

/-- The methods of the logger (DQN, lines 141-149); `careful := false` is that of the cookbook (lines 711-718), which does not ask whether there were
rewards. -/
def Logger.on {B S R : Type} (careful : Bool) (l : Logger) : CbEvent B S R ℝ → Logger
  | .stepEnd _ _ _ w _ => { l with rewards := l.rewards ++ [w] }
  | .resetBegin => ⟨[], if careful ∧ l.rewards = [] then l.means else l.means ++ [mean l.rewards]⟩
  | _ => l

/-! ## The grid example -/

/-- `parameterize_three_phase_grid(amplitude, frequency, initial_phase)(t)` (scim_ideal_grid_simulation.py:14-34) -/
def gridVoltage (amplitude frequency phase t : ℝ) : List ℝ :=
  let omega := frequency * 2 * Real.pi
  let phi := 2 * Real.pi / 3
  let start := phase * 2 * Real.pi / 360
  [amplitude * Real.sin (omega * t + start), amplitude * Real.sin (omega * t + start - phi), amplitude * Real.sin (omega * t + start + phi)]

/-- The loop (scim_ideal_grid_simulation.py:74-83) for the steps from `idx` on: what is appended to `TIME` and `STATE`, with the system's state after
the step.  `step` is `env.step`, `scale` the multiplication with the limits. -/
def gridLoop (step : σ → List ℝ → σ × List ℝ) (scale : List ℝ → List ℝ) (tau : ℝ) (u : ℝ → List ℝ) : ℕ → ℕ → σ → List (ℝ × List ℝ × σ)
  | _, 0, _ => []
  | idx, n + 1, st =>
    let r := step st (u (idx * tau))
    (idx * tau, scale r.2, r.1) :: gridLoop step scale tau u (idx + 1) n r.1

/-- The whole record (scim_ideal_grid_simulation.py:58-83). -/
def gridRecord (reset : σ → σ × List ℝ) (step : σ → List ℝ → σ × List ℝ) (scale : List ℝ → List ℝ) (tau : ℝ) (u : ℝ → List ℝ) (n : ℕ) (st : σ) :
    List (ℝ × List ℝ × σ) :=
  (0, scale (reset st).2, (reset st).1) :: gridLoop step scale tau u 0 n (reset st).1

end

end GEM.Examples
