import Verif.Model.Systems

/-!
# Model predictive control  (`examples/model_predictive_controllers/pmsm_mpc_dq_current_control.ipynb`)

The class `MPC` (lines 104-238 of the file).  The optimiser GEKKO is a parameter: a function from the optimisation problem to the new values of
`u_d` and `u_q`, or an exception.  `state[self.x_idx]` and `self.limits[self.x_idx]` are `state "x"` and `limits "x"`, the entries at the
position of the name.  Exact arithmetic.  Not modelled: the search for the optimum and the options of the optimiser.
-/

namespace GEM.Mpc

open GEM GEM.Sys

noncomputable section

/-- The attributes set by `MPC.__init__` (lines 105-132). -/
structure Mpc where
  tau : ℝ
  limits : String → ℝ
  lq : ℝ
  ld : ℝ
  psi : ℝ
  rs : ℝ
  p : ℝ
  ph : ℕ := 5
  refQ : ℕ := 0
  refD : ℕ := 1

/-- What the optimiser is told about the present step (lines 134-185): the times and, for each of them, angle, target currents and the limit of
the voltages between phases; initial voltages and currents, bounds of the currents, and the electrical speed. -/
structure Task where
  times : List ℝ
  angles : List ℝ
  targets : List (Fin 2 → ℝ)
  ceilings : List ℝ
  u : Fin 2 → ℝ
  i : Fin 2 → ℝ
  bounds : Fin 2 → ℝ
  omega : ℝ

/-- `MPC.control` up to the constants of the optimisation problem (lines 134-185).  `np.linspace(tau, tau * ph, ph)` has the entries
`tau * (k + 1)`. -/
def Mpc.task (m : Mpc) (state : String → ℝ) (reference : List ℝ) : Except Err Task := do
  let eps := state "epsilon" * m.limits "epsilon"
  let omega := m.p * state "omega" * m.limits "omega"
  let targets ← (List.range m.ph).mapM fun _ => do
    let rq ← getE reference m.refQ
    let rd ← getE reference m.refD
    .ok ![rd * m.limits "i_sd", rq * m.limits "i_sq"]
  .ok { times := (List.range m.ph).map fun k : ℕ => m.tau * (k + 1)
        angles := (List.range m.ph).map fun k : ℕ => eps + ((k : ℝ) - 1) * m.tau * omega
        targets := targets
        ceilings := (List.range m.ph).map fun _ => 2 * m.limits "u_a"
        u := ![state "u_sd" * m.limits "u_sd", state "u_sq" * m.limits "u_sq"]
        i := ![state "i_sd" * m.limits "i_sd", state "i_sq" * m.limits "i_sq"]
        bounds := ![m.limits "i_sd", m.limits "i_sq"]
        omega := omega }

/-- The differential equations of the optimisation problem (lines 197-199). -/
def Mpc.Predicts (m : Mpc) (omega id iq did diq ud uq : ℝ) : Prop :=
  m.ld * did = ud - m.rs * id + omega * m.lq * iq ∧ m.lq * diq = uq - m.rs * iq - omega * m.ld * id - omega * m.psi

/-- The voltage limitations of the optimisation problem (lines 204-210). -/
def Mpc.Allows (ceiling eps ud uq : ℝ) : Prop :=
  ceiling ≥ 3 / 2 * Real.cos eps * ud - 3 / 2 * Real.sin eps * uq - √3 / 2 * Real.sin eps * ud - √3 / 2 * Real.cos eps * uq ∧
  -ceiling ≤ 3 / 2 * Real.cos eps * ud - 3 / 2 * Real.sin eps * uq - √3 / 2 * Real.sin eps * ud - √3 / 2 * Real.cos eps * uq ∧
  ceiling ≥ √3 * Real.sin eps * ud + √3 * Real.cos eps * uq ∧
  -ceiling ≤ √3 * Real.sin eps * ud + √3 * Real.cos eps * uq ∧
  ceiling ≥ -3 / 2 * Real.cos eps * ud + 3 / 2 * Real.sin eps * uq - √3 / 2 * Real.sin eps * ud - √3 / 2 * Real.cos eps * uq ∧
  -ceiling ≤ -3 / 2 * Real.cos eps * ud + 3 / 2 * Real.sin eps * uq - √3 / 2 * Real.sin eps * ud - √3 / 2 * Real.cos eps * uq

/-- `u_max` (line 221) -/
def widest (u : Fin 3 → ℝ) : ℝ := max (max |u 0 - u 1| |u 1 - u 2|) |u 2 - u 0|

/-- the additional voltage limitation (lines 221-225) -/
def Mpc.squeeze (m : Mpc) (u : Fin 3 → ℝ) : Fin 3 → ℝ :=
  if widest u ≥ 2 * m.limits "u_a" then fun k => u k / widest u * 2 * m.limits "u_a" else u

/-- the zero point shift (lines 227-231) -/
def shift (u : Fin 3 → ℝ) : Fin 3 → ℝ :=
  fun k => u k - 1 / 2 * (max (max (u 0) (u 1)) (u 2) + min (min (u 0) (u 1)) (u 2))

/-- What `MPC.control` does with the voltages of the optimiser (lines 219-238).  `_backward_transformation` (line 109) reverses the pair
`(u_q, u_d)` before the rotation. -/
def Mpc.phases (m : Mpc) (ud uq eps : ℝ) : List ℝ :=
  let u := shift (m.squeeze (dqToAbc ![ud, uq] eps))
  [u 0 / m.limits "u_a", u 1 / m.limits "u_b", u 2 / m.limits "u_c"]

/-- `MPC.control` (lines 134-238) -/
def Mpc.control (m : Mpc) (solve : Task → Except Err (ℝ × ℝ)) (state : String → ℝ) (reference : List ℝ) : Except Err (List ℝ) := do
  let t ← m.task state reference
  let u ← solve t
  .ok (m.phases u.1 u.2 (state "epsilon" * m.limits "epsilon"))

end

end GEM.Mpc
