import Verif.Model.Basic
import Mathlib.Algebra.Order.Field.Basic
import Mathlib.Logic.Function.Basic
import Mathlib.Data.List.Basic

/-!
# Plots of the classic controllers

`ExternalPlot` (examples/classic_controllers/external_plot.py), `ExternallyReferencedStatePlot` and `plot`
(examples/classic_controllers/controllers/plot_external_data.py).

Arrays are functions of the index; only indices below the width are read or written.  `nan` is `none`.  Left out: labels, colours, limits of the axes and the
vertical lines at resets (`Model/Dashboard.lean` has these); `on_reset_begin` and `render` do not change the data.
-/

namespace GEM.ExternalPlot

variable {K : Type} [Field K]

/-- Arguments of the constructor (external_plot.py:38), width and sampling time (base_plots.py:130, 142). -/
structure Cfg (K : Type) where
  referenced : Bool
  added : ℕ
  w : ℕ
  tau : K

/-- `_k`, `_t`, `_x_data` and the containers in the order of `_y_data` (external_plot.py:126, 137): states, references, additional data. -/
structure Plot (K : Type) where
  k : ℕ
  t : K
  x : ℕ → K
  y : ℕ → ℕ → Option K

/-- `reset_data` (external_plot.py:89-100, base_plots.py:144-151). -/
def Plot.new (c : Cfg K) : Plot K := ⟨0, 0, fun i => i * c.tau, fun _ _ => none⟩

/-- The containers that `add_data` writes to, in the order of the data (external_plot.py:180-195). -/
def Cfg.targets (c : Cfg K) : List ℕ :=
  if c.referenced then 0 :: 1 :: (List.range c.added).map (· + 2) else 0 :: (List.range c.added).map (· + 2)

/-- Assignments one after the other; missing data raise an `IndexError` after the assignments before it. -/
def write (idx : ℕ) : List ℕ → List K → (ℕ → ℕ → Option K) → Call (ℕ → ℕ → Option K) Unit
  | [], _, d => (d, .ok ())
  | _ :: _, [], d => (d, .error .index)
  | t :: ts, v :: vs, d => write idx ts vs (Function.update d t (Function.update (d t) idx (some v)))

/-- `add_data` (external_plot.py:180-195). -/
def Plot.addData (c : Cfg K) (values : List K) (p : Plot K) : Call (Plot K) Unit :=
  let r := write (p.k % c.w) c.targets values p.y
  ({ p with y := r.1 }, r.2)

/-- `on_step_end` (external_plot.py:175-178, base_plots.py:162-165). -/
def Plot.stepEnd (c : Cfg K) (p : Plot K) : Plot K :=
  { p with k := p.k + 1, t := p.t + c.tau, x := Function.update p.x ((p.k + 1) % c.w) (p.t + c.tau) }

/-- Number of lines in the axis (external_plot.py:106-137). -/
def Cfg.lines (c : Cfg K) : ℕ := 1 + (if c.referenced then 1 else 0) + c.added

/-- The container whose data `render` puts on line `j`: `zip(self._lines, self._y_data)` (base_plots.py:68-69). -/
def Plot.onLine (c : Cfg K) (p : Plot K) (j : ℕ) : Option (ℕ → Option K) := if j < c.lines ∧ j < 2 + c.added then some (p.y j) else none

/-- The calls `external_ref_plots[i].external_reference(v)` of `plot` (plot_external_data.py:31-49), as pairs `(i, v)`. -/
def passRefs (names plots : List String) (refStates : List ℕ) (values : List K) : Except Err (List (ℕ × K)) :=
  if plots.length = 0 then .ok []
  else if ∀ s ∈ plots, s ∈ names then
    .ok ((refStates.zip values).filterMap fun q => ((plots.map names.idxOf).idxOf? q.1).map fun i => (i, q.2))
  else .error .value

/-- What `get_plot_data` returns. -/
structure Data (K : Type) where
  refState : List ℕ
  refValue : List K
  external : List (List K)

/-- `plot` (plot_external_data.py:1-54): references and data that it hands over, with the positions of the plots.  `none` is the default `external_data=()`,
which cannot be indexed with a string.  What `add_data` does with the data is left to `Plot.addData`. -/
def plot (names plots : List String) (nExternal : ℕ) (visualization : Bool) (data : Option (Data K)) :
    Except Err (List (ℕ × K) × List (ℕ × List K)) :=
  if visualization then do
    let refs ← if plots.length = 0 then .ok [] else
      match data with
      | none => .error .type
      | some d => passRefs names plots d.refState d.refValue
    let exts ← if nExternal = 0 then .ok [] else
      match data with
      | none => .error .type
      | some d => .ok ((List.range nExternal).zip d.external)
    return (refs, exts)
  else .ok ([], [])

/-- The classes of controllers. -/
inductive Caller
  | continuousAction | discreteAction | cascaded | foc | cascadedFoc | inductionFoc | inductionCascadedFoc
deriving DecidableEq

/-- The call of `plot` in `control`: continuous_action_controller.py:133, dicrete_action_controller.py:73, cascaded_controller.py:213-220,
foc_controller.py:183-187, cascaded_foc_controller.py:284-289, induction_motor_foc.py:158, induction_motor_cascaded_foc.py:245-250.  `data` is what
`get_plot_data` returns, `visualization` and `rendering` (`env.render_mode != None`) matter in the cascaded controller only. -/
def Caller.plots (caller : Caller) (names plots : List String) (nExternal : ℕ) (visualization rendering : Bool) (data : Data K) :
    Except Err (List (ℕ × K) × List (ℕ × List K)) :=
  match caller with
  | .continuousAction => plot names plots 0 true none
  | .discreteAction => plot names plots 0 true none
  | .cascaded => if rendering then plot names plots 0 visualization (some data) else .ok ([], [])
  | .foc => plot names plots 0 true (some data)
  | .cascadedFoc => plot names plots 0 true (some data)
  | .inductionFoc => plot [] [] nExternal true (some data)
  | .inductionCascadedFoc => plot names plots nExternal true (some data)

end GEM.ExternalPlot
