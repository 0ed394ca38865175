import Mathlib.Algebra.Order.Field.Basic
import Mathlib.Data.List.MinMax
import Mathlib.Logic.Function.Basic
import Verif.Model.Basic

/-!
# Dashboard  (`src/gym_electric_motor/visualization`)

The data the plots collect and hand to matplotlib.  matplotlib itself is not modelled: a line shows the points it was given last;
colours, labels, figures and windows are left out.  An array of length `w` is a function of which only the values below `w` are
used; `nan` is `none`.  `on_step_begin` and `on_step_end` of a step come together (a step that raises in between is left out).
-/

namespace GEM.Dash

open GEM

variable {K : Type} [Field K] [LinearOrder K] [IsStrictOrderedRing K]

/-! ## Plots over the time -/

/-- Attributes of a `TimePlot` (base_plots.py 93–131) with the vertical lines drawn so far. -/
structure Time (K : Type) where
  k : ℕ
  t : K
  /-- `_done`, `none` before the first reset -/
  done : Option Bool
  resets : List K
  violations : List K
  blue : List K
  red : List K
  x : ℕ → K

/-- `__init__` (base_plots.py 118–131) followed by `reset_data`, which `set_env` calls -/
def Time.new (tau : K) : Time K := ⟨0, 0, none, [], [], [], [], fun j => j * tau⟩

/-- `reset_data` (base_plots.py 147–154); the lines of the old figure are kept here, see `Time.init` -/
def Time.clear (tau : K) (s : Time K) : Time K :=
  { s with k := 0, t := 0, resets := [], violations := [], x := fun j => j * tau }

/-- `on_reset_begin` (base_plots.py 156–163) -/
def Time.reset (s : Time K) : Time K :=
  match s.done with
  | none => { s with done := some false }
  | some true => { s with violations := s.violations ++ [s.t], done := some false }
  | some false => { s with resets := s.resets ++ [s.t], done := some false }

/-- `on_step_end` (base_plots.py 165–168) -/
def Time.stepEnd (tau : K) (terminated : Bool) (s : Time K) : Time K :=
  { s with k := s.k + 1, t := s.t + tau, done := some terminated }

/-- `initialize`: a new figure has no lines -/
def Time.init (s : Time K) : Time K := { s with blue := [], red := [] }

/-- the vertical lines in `render` (base_plots.py 170–179) -/
def Time.draw (s : Time K) : Time K :=
  { s with red := s.red ++ s.violations, violations := [], blue := s.blue ++ s.resets, resets := [] }

/-- What a line shows: `None` or the points it was given last. -/
abbrev Line (K : Type) := Option ((ℕ → K) × (ℕ → Option K))

/-- A time plot with its arrays: `yData` is the list `_y_data` (arrays are written in place, so the entries are names of arrays:
0 the state, the action or the reward; 1 the reference), `lines` is what matplotlib shows. -/
structure Plot (K : Type) where
  time : Time K
  /-- `_state_data`, `_action_data` or `_reward_data` -/
  main : ℕ → Option K
  /-- `_ref_data` -/
  ref : ℕ → Option K
  yData : List (Fin 2)
  lines : List (Line K)

/-- an array by its name -/
def Plot.array (p : Plot K) (i : Fin 2) : ℕ → Option K := if i = 0 then p.main else p.ref

/-- the kinds of time plots -/
inductive Kind
  | state | action | reward
deriving DecidableEq

/-- What a plot knows of the environment (`set_env`): the kind, the width, the sampling time; for a state plot its limit, the
upper end of its state space and whether it is referenced. -/
structure Cfg (K : Type) where
  kind : Kind
  w : ℕ
  tau : K
  limit : K
  high : K
  referenced : Bool
  scale : Bool

/-- One step as the plots see it: the entries of the plotted state and of its reference, the plotted entry of the action (`none`
for the action `None`), the reward and the flag. -/
structure Step (K : Type) where
  state : K
  ref : K
  action : Option K
  reward : K
  terminated : Bool

/-- `_normalized` (state_plot.py 88) and the conversion (state_plot.py 158, 160) -/
def Cfg.scaled (c : Cfg K) (v : K) : K := if c.limit ≠ c.high then v * c.limit else v

/-- a plot after `set_env` -/
def Plot.new (c : Cfg K) : Plot K where
  time := Time.new c.tau
  main := fun _ => none
  ref := fun _ => none
  yData := if c.kind = .state then [] else [0]
  lines := []

/-- `on_step_begin` and `on_step_end` (state_plot.py 151–160, action_plot.py 82–92, reward_plot.py 37–41) -/
def Plot.step (c : Cfg K) (v : Step K) (p : Plot K) : Plot K :=
  match c.kind with
  | .state =>
    let t := p.time.stepEnd c.tau v.terminated
    let i := t.k % c.w
    { p with time := { t with x := Function.update t.x i t.t }, main := Function.update p.main i (some (c.scaled v.state)),
             ref := if c.referenced then Function.update p.ref i (some (c.scaled v.ref)) else p.ref }
  | .action =>
    let i := p.time.k % c.w
    { p with time := ({ p.time with x := Function.update p.time.x i p.time.t } : Time K).stepEnd c.tau v.terminated,
             main := match v.action with
               | none => p.main
               | some a => Function.update p.main i (some a) }
  | .reward =>
    let i := p.time.k % c.w
    { p with time := ({ p.time with x := Function.update p.time.x i p.time.t } : Time K).stepEnd c.tau v.terminated,
             main := Function.update p.main i (some v.reward) }

/-- `reset_data` (state_plot.py 103–107, action_plot.py 45–48, reward_plot.py 33–35): the action plot enters its new array
in `_y_data`, the reward plot does not -/
def Plot.clear (c : Cfg K) (p : Plot K) : Plot K :=
  { p with time := p.time.clear c.tau, main := fun _ => none, ref := fun _ => none,
           yData := if c.kind = .action then [0] else [] }

/-- `initialize` (state_plot.py 109–149, action_plot.py 35–43, reward_plot.py 17–20): new lines with the present data -/
def Plot.init (c : Cfg K) (p : Plot K) : Plot K :=
  { p with time := p.time.init,
           lines := some (p.time.x, p.main)
             :: (if c.kind = .state ∧ c.referenced then [some (p.time.x, p.ref)] else []),
           yData := if c.kind = .state then [0, 1] else p.yData }

/-- the values in an array of length `w` that are not nan -/
def entries (w : ℕ) (a : ℕ → Option K) : List K := (List.range w).filterMap a

/-- `np.sign` -/
def sgn (x : K) : K := if 0 < x then 1 else if x < 0 then -1 else 0

/-- `_scale_y_axis` (base_plots.py 188–199): the new limits, or `none` when they are left -/
def Plot.scaleY (c : Cfg K) (p : Plot K) : Except Err (Option (K × K)) :=
  if c.scale then
    match p.yData with
    | [] => .error .index
    | [a] => if entries c.w (p.array a) = [] then .ok none else .error .index
    | a :: b :: _ =>
      match entries c.w (p.array a), entries c.w (p.array b) with
      | [], _ => .ok none
      | _, [] => .ok none
      | v :: vs, u :: us =>
        let lo := min (vs.foldl min v) (us.foldl min u)
        let hi := max (vs.foldl max v) (us.foldl max u)
        .ok (some (lo - sgn lo * (1 / 10) * lo, hi + sgn hi * (1 / 10) * hi))
  else .ok none

/-- `render` (base_plots.py 63–71, 170–179): `zip(self._lines, self._y_data)`, then the axes, then the vertical lines -/
def Plot.draw (c : Cfg K) (p : Plot K) : Call (Plot K) (Option (K × K)) :=
  let shown := (p.lines.zip p.yData).map fun q => (some (p.time.x, p.array q.2) : Line K)
  let p1 := { p with lines := shown ++ p.lines.drop p.yData.length }
  match p.scaleY c with
  | .error e => (p1, .error e)
  | .ok r => ({ p1 with time := p1.time.draw }, .ok r)

/-! ## Plots over the episodes -/

/-- Attributes of an `EpisodePlot` (base_plots.py 202–225) of the kinds `EpisodeLengthPlot` and `MeanEpisodeRewardPlot`.  `no`
is `_episode_no + 1`. -/
structure Episodes (K : Type) where
  no : ℕ
  x : List ℕ
  y : List K
  sum : K
  len : ℕ

/-- the two kinds -/
inductive EpisodeKind
  | length | mean
deriving DecidableEq

/-- `__init__` -/
def Episodes.new : Episodes K := ⟨0, [], [], 0, 0⟩

/-- `on_step_end` (episode_length_plot.py 24–25, mean_episode_reward_plot.py 25–28; the sum is not used by the first) -/
def Episodes.step (e : Episodes K) (k : ℕ) (reward : K) : Episodes K := { e with sum := e.sum + reward, len := k }

/-- `on_reset_begin` (base_plots.py 209–213) with `_set_y_data` (episode_length_plot.py 34–39,
mean_episode_reward_plot.py 35–44): the sum of no rewards and the length are the int 0, so python raises -/
def Episodes.reset (kind : EpisodeKind) (e : Episodes K) : Call (Episodes K) Unit :=
  match e.no with
  | 0 => ({ e with no := 1 }, .ok ())
  | n + 1 =>
    let e1 := { e with x := e.x ++ [n] }
    match kind with
    | .length => ({ e1 with y := e.y ++ [(e.len : K)], len := 0, no := n + 2 }, .ok ())
    | .mean =>
      if e.len = 0 then (e1, .error .zeroDiv)
      else ({ e1 with y := e.y ++ [e.sum / e.len], sum := 0, len := 0, no := n + 2 }, .ok ())

/-- `reset_data` (base_plots.py 218–221, episode_length_plot.py 27–32, mean_episode_reward_plot.py 30–33) -/
def Episodes.clear (e : Episodes K) : Episodes K := { e with x := [], y := [], no := 0 }

/-- `initialize` (episode_length_plot.py 20–22, mean_episode_reward_plot.py 19–23) -/
def Episodes.init (kind : EpisodeKind) (e : Episodes K) : Episodes K :=
  match kind with
  | .length => e
  | .mean => { e with y := [] }

/-! ## Cumulated violations -/

/-- Attributes of `CumulativeConstraintViolationPlot` (cumulative_constraint_violation_plot.py 7–12). -/
structure Cum where
  k : ℕ
  no : ℕ
  x : List ℕ
  y : List ℕ

/-- `__init__` -/
def Cum.new : Cum := ⟨0, 0, [0], [0]⟩

/-- `on_step_begin` (base_plots.py 233–234) and `on_step_end` (cumulative_constraint_violation_plot.py 23–31) -/
def Cum.step (c : Cum) (terminated : Bool) : Cum :=
  if terminated then ⟨c.k + 1, c.no + 1, c.x ++ [c.k, c.k + 1], c.y ++ [c.no, c.no + 1]⟩
  else { c with k := c.k + 1 }

/-- `reset_data` (base_plots.py 236–239, cumulative_constraint_violation_plot.py 19–21) -/
def Cum.clear (c : Cum) : Cum := ⟨0, c.no, [], [0]⟩

/-! ## Updates of the dashboard -/

/-- `_k`, `_update_render` and whether there is a figure (motor_dashboard.py 82–106). -/
structure Board where
  k : ℕ
  flag : Bool
  figure : Bool

/-- What a call does to the plots. -/
inductive Act
  | init
  | draw
deriving DecidableEq

/-- `render` (motor_dashboard.py 152–161) of a dashboard with plots -/
def Board.render (b : Board) : Board × List Act :=
  ({ b with figure := true, flag := false }, (if b.figure then [] else [Act.init]) ++ (if b.flag then [Act.draw] else []))

/-- `on_step_end` without the plots (motor_dashboard.py 148–150) -/
def Board.count (interval : ℕ) (b : Board) : Board :=
  { b with k := b.k + 1, flag := b.flag || decide ((b.k + 1) % interval = 0) }

/-- render modes of `MotorDashboard` -/
inductive Mode
  | none | figure | figureOnce
deriving DecidableEq

/-- `on_step_end` (motor_dashboard.py 352–355) -/
def Board.step (mode : Mode) (interval : ℕ) (b : Board) : Board × List Act :=
  let b1 := b.count interval
  if mode = .figure then b1.render else (b1, [])

/-- `on_close` (motor_dashboard.py 347–350) -/
def Board.close (mode : Mode) (b : Board) : Board × List Act := if mode = .figureOnce then b.render else (b, [])

/-! ## Console -/

/-- Attributes of `ConsolePrinter` (console_printer.py 26–40) as far as they are printed. -/
structure Console (K : Type) where
  k : ℕ
  cum : K
  done : Bool
  episode : ℕ
  reset : Bool

/-- `__init__` -/
def Console.new : Console K := ⟨0, 0, false, 0, false⟩

/-- The summary of an episode: number, constraint violation or not, number of steps, cumulated reward. -/
structure Summary (K : Type) where
  episode : ℕ
  violated : Bool
  steps : ℕ
  cum : K

/-- `on_reset_begin` (console_printer.py 42–44) -/
def Console.onReset (c : Console K) : Console K := { c with reset := true }

/-- `on_step_begin` and `on_step_end` (console_printer.py 54–66) -/
def Console.onStep (c : Console K) (k : ℕ) (reward : K) (terminated : Bool) : Console K :=
  { c with k := k, cum := c.cum + reward, done := terminated }

/-- `render` (console_printer.py 68–90) with `verbose` of at least 1; the output for every step is left out -/
def Console.render (c : Console K) : Console K × Option (Summary K) :=
  if c.reset then ({ c with cum := 0, reset := false, episode := c.episode + 1 }, some ⟨c.episode, c.done, c.k, c.cum⟩)
  else (c, none)

end GEM.Dash
