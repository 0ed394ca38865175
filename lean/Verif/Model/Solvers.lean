import Mathlib.Algebra.Module.Defs
import Mathlib.Algebra.Field.Defs
import Verif.Model.Basic

/-!
# Model of `physical_systems/solvers.py`

`EulerSolver` is modelled completely.  The scipy solvers are only wrapped by the repository; they appear in the model
of the physical system as an arbitrary solver object (`GEM.Sys`).
Times are elements of a field `K`, states elements of a `K`-module `Y` (numpy arrays of a fixed length).
-/

namespace GEM.Solver

variable {K : Type*} [Field K] {Y : Type*} [AddCommGroup Y] [Module K Y]

/-- Attributes `_t`, `_y`, `_nsteps` of an `EulerSolver`
(/repo/src/gym_electric_motor/physical_systems/solvers.py:9-18, 88-96).  `_f_params` is part of the right-hand side that is
handed to `integrate` below. -/
structure Euler (K Y : Type*) where
  t : K
  y : Y
  nsteps : ℕ

/-- `set_initial_value` (solvers.py:36-45). -/
def Euler.setInitialValue (s : Euler K Y) (y : Y) (t : K) : Euler K Y := { s with y := y, t := t }

/-- `_integrate_one_step` (solvers.py:124-136): one explicit Euler step, evaluated at the old time. -/
def Euler.integrateOneStep (f : K → Y → Y) (s : Euler K Y) (t : K) : Euler K Y :=
  { s with y := s.y + (t - s.t) • f s.t s.y, t := t }

/-- The loop of `_integrate_nsteps` (solvers.py:114-119): `n` remaining rounds, local variables `current_t`, `state`. -/
def nstepsLoop (f : K → Y → Y) (tau : K) : ℕ → K → Y → Y
  | 0, _, state => state
  | n + 1, currentT, state => nstepsLoop f tau n (currentT + tau) (state + tau • f (currentT + tau) state)

/-- `_integrate_nsteps` (solvers.py:103-122).  Line 115 initialises `current_t = t` with the *end* of the interval, as
the code does. -/
def Euler.integrateNsteps (f : K → Y → Y) (s : Euler K Y) (t : K) : Euler K Y :=
  let tau := (t - s.t) / s.nsteps
  { s with y := nstepsLoop f tau s.nsteps t s.y, t := t }

/-- `integrate` (solvers.py:99-101): the method is selected in `__init__` by `nsteps == 1`.  `nsteps = 0` divides by
zero (line 112).  Negative numbers of steps are not modelled. -/
def Euler.integrate (f : K → Y → Y) (s : Euler K Y) (t : K) : Call (Euler K Y) Y :=
  if s.nsteps = 1 then
    let s' := s.integrateOneStep f t
    (s', .ok s'.y)
  else if s.nsteps = 0 then (s, .error .zeroDiv)
  else
    let s' := s.integrateNsteps f t
    (s', .ok s'.y)

end GEM.Solver
