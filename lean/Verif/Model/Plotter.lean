import Verif.Model.Dashboard

/-!
# Reference plotter, `GemController.make` and `ElectricMotorEnvironment.sim`

`gem_controllers/reference_plotter.py`, the parts of `gem_controllers/gem_controller.py` and `gem_adapter.py` that decide what is
plotted, and the class attribute `sim` of the environments (`gym_electric_motor/core.py`).  Attributes of a Python class are fields
of a world that all objects share.  Left out: the horizontal lines of `add_maximum_reference` and the labels of the legend.
-/

namespace GEM.Dash

open GEM

variable {K : Type} [Field K] [LinearOrder K] [IsStrictOrderedRing K]

/-- the loop of `update_plots` for one plot (reference_plotter.py 63–64) -/
def Plot.note (c : Cfg K) (value : K) (p : Plot K) : Plot K :=
  { p with ref := Function.update p.ref (p.time.k % c.w) (some value) }

/-! ## What is plotted -/

/-- A visualization as `ReferencePlotter.tune` sees it: the states of its time plots (`none` for a time plot that is not a
`StatePlot`), or no attribute `_time_plots` at all, like `ConsolePrinter` (console_printer.py 6–52). -/
abbrev Visual := Option (List (Option String))

/-- `ReferencePlotter.tune` (reference_plotter.py 14–36): the states whose plots are collected, in the order of the plots -/
def collect (plotReferences : Bool) (referenced : List String) : List Visual → Except Err (List String)
  | [] => .ok []
  | v :: vs =>
    if plotReferences then
      match v with
      | none => .error .attribute
      | some plots =>
        match collect plotReferences referenced vs with
        | .error e => .error e
        | .ok rest => .ok ((plots.filterMap id).filter (· ∈ referenced) ++ rest)
    else .ok []

/-- the options of `GemController.make` that concern plotting (gem_controller.py 30–41) -/
structure MakeOptions where
  shouldPlot : Bool := false
  plotReferences : Bool := true

/-- A controller: the plots its `ReferencePlotter` has collected. -/
structure Made where
  plots : List String

/-- `GemController.should_plot`, an attribute of the class; `none` before the first `make` -/
abbrev Shared := Option Bool

/-- `GemController.make` (gem_controller.py 64–99) with `GymElectricMotorAdapter.tune` (gem_adapter.py 97–117), which passes
`plot_references=True` whatever the options are.  `referenced` are the `referenced_states` of the controller. -/
def make (visuals : List Visual) (referenced : List String) (o : MakeOptions) (_ : Shared) : Call Shared Made :=
  (some o.shouldPlot,
    match collect true referenced visuals with
    | .error e => .error e
    | .ok plots => .ok ⟨plots⟩)

/-- the plots `control` writes to (gem_adapter.py 93–94) -/
def Made.plotted (c : Made) (s : Shared) : Except Err (List String) :=
  match s with
  | none => .error .attribute
  | some b => .ok (if b then c.plots else [])

/-! ## `ElectricMotorEnvironment.sim` -/

/-- `SimulationEnvironment` (core.py 42–50), one object for all environments (core.py 110) -/
structure Sim (K : Type) where
  tau : K
  step : ℕ

/-- the object of the class before the first environment is made (core.py 44–45) -/
def Sim.new : Sim K := ⟨0, 0⟩

/-- the property `t` (core.py 48–50) -/
def Sim.t (s : Sim K) : K := s.tau * s.step

/-- What environments do to it: `__init__` writes the sampling time of the physical system (core.py 234); `reset` (core.py 309–319)
and `step` (core.py 341–370) do not touch it.  The first argument of `step` and `reset` is the number of the environment. -/
inductive EnvOp (K : Type)
  | make (tau : K)
  | reset (i : ℕ)
  | step (i : ℕ)

/-- effect on the shared object -/
def Sim.after (s : Sim K) : EnvOp K → Sim K
  | .make tau => { s with tau := tau }
  | .reset _ => s
  | .step _ => s

end GEM.Dash
