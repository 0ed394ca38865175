import Mathlib.Analysis.SpecialFunctions.Trigonometric.Basic
import Mathlib.Algebra.Order.Field.Basic
import Verif.Model.Solvers

/-!
# Model of `physical_systems/voltage_supplies.py`
-/

namespace GEM.Supply

open GEM.Solver

section
variable {K : Type*} [Field K]

/-- `IdealVoltageSupply.get_voltage` (/repo/src/gym_electric_motor/physical_systems/voltage_supplies.py:70-72). -/
def idealVoltage (uNominal : K) (_t _iSup : K) : List K := [uNominal]

/-- Object state of `RCVoltageSupply` (voltage_supplies.py:78-106): parameters and the embedded one-step `EulerSolver`,
whose state has one entry. -/
structure RC (K : Type*) where
  u0 : K
  r : K
  c : K
  solver : Euler K K

/-- `RCVoltageSupply.__init__` (voltage_supplies.py:78-106).  The solver has no initial value before the first
`reset`; the capacitor voltage `u_nominal` of line 103 stands for it. -/
def RC.new (uNominal r c : K) : RC K := ⟨uNominal, r, c, ⟨0, uNominal, 1⟩⟩

/-- `supply_range` (voltage_supplies.py:95). -/
def RC.range (s : RC K) : K × K := (0, s.u0)

/-- `system_equation` (voltage_supplies.py:108-110). -/
def RC.rhs (u0 iSup r c : K) (_t u : K) : K := (u0 - u - r * iSup) / (r * c)

/-- `reset` (voltage_supplies.py:112-117). -/
def RC.reset (s : RC K) : RC K × K :=
  ({ s with solver := s.solver.setInitialValue s.u0 0 }, s.u0)

/-- `get_voltage` (voltage_supplies.py:119-123); the embedded solver always has `nsteps = 1` (line 105), hence takes
the one-step branch. -/
def RC.getVoltage (s : RC K) (t iSup : K) : RC K × K :=
  let s' := s.solver.integrateOneStep (Y := K) (RC.rhs s.u0 iSup s.r s.c) t
  ({ s with solver := s' }, s'.y)

/-- A history of `get_voltage` calls `(t, i_sup)`: the supply afterwards and the voltages returned. -/
def RC.run (s : RC K) : List (K × K) → RC K × List K
  | [] => (s, [])
  | (t, i) :: l =>
    let r := s.getVoltage t i
    let q := r.1.run l
    (q.1, r.2 :: q.2)

end

open Real

/-- `AC1PhaseSupply` / `AC3PhaseSupply` objects (voltage_supplies.py:126-166, 169-213): frequency, phase, whether the
phase is fixed, and the peak value. -/
structure AC where
  f : ℝ
  phi : ℝ
  fixed : Bool
  maxAmp : ℝ

/-- `AC1PhaseSupply.__init__` (voltage_supplies.py:129-156).  `phase = none`: no phase given, `draw` is the value of
`np.random.rand()`.  (The type checks and the write into the caller's dictionary are modelled in `GEM.Sharing`.) -/
noncomputable def AC.new1 (uNominal f : ℝ) (phase : Option ℝ) (draw : ℝ) : Except Err AC :=
  match phase with
  | some p => if 0 ≤ p ∧ p < 2 * π then .ok ⟨f, p, true, uNominal * √2⟩ else .error .assertion
  | none => .ok ⟨f, draw * 2 * π, false, uNominal * √2⟩

/-- `AC3PhaseSupply.__init__` (voltage_supplies.py:174-200). -/
noncomputable def AC.new3 (uNominal f : ℝ) (phase : Option ℝ) (draw : ℝ) : Except Err AC :=
  match phase with
  | some p => if 0 ≤ p ∧ p < 2 * π then .ok ⟨f, p, true, uNominal / √3 * √2⟩ else .error .assertion
  | none => .ok ⟨f, draw * 2 * π, false, uNominal / √3 * √2⟩

/-- `supply_range` (voltage_supplies.py:156, 200). -/
def AC.range (s : AC) : ℝ × ℝ := (-1 * s.maxAmp, s.maxAmp)

/-- `AC1PhaseSupply.get_voltage` (voltage_supplies.py:163-166). -/
noncomputable def AC.get1 (s : AC) (t : ℝ) : List ℝ := [s.maxAmp * sin (2 * π * s.f * t + s.phi)]

/-- `AC3PhaseSupply.get_voltage` (voltage_supplies.py:208-213). -/
noncomputable def AC.get3 (s : AC) (t : ℝ) : List ℝ :=
  (List.range 3).map (fun i : ℕ => s.maxAmp * sin (2 * π * s.f * t + s.phi + 2 / 3 * π * i))

/-- `reset` of both classes (voltage_supplies.py:158-161, 202-206): a new random phase unless it is fixed. -/
noncomputable def AC.reset (get : AC → ℝ → List ℝ) (s : AC) (draw : ℝ) : AC × List ℝ :=
  let s' := if s.fixed then s else { s with phi := draw * 2 * π }
  (s', get s' 0)

end GEM.Supply
