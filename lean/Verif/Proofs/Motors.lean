import Mathlib.Tactic.Ring
import Mathlib.Tactic.FieldSimp
import Mathlib.Tactic.Linarith
import Mathlib.Tactic.Positivity
import Mathlib.Tactic.FinCases
import Mathlib.Analysis.Calculus.Deriv.Mul
import Mathlib.Analysis.Calculus.Deriv.Pow
import Mathlib.Analysis.Calculus.Deriv.Add
import Mathlib.Algebra.BigOperators.Fin
import Verif.Spec.Motors
import Verif.Model.Motors

/-! # Helper lemmas for motors -/

namespace GEM.Motor

theorem hasDerivAt_of_affine {g : ℝ → ℝ} {d x0 : ℝ} (h : ∀ x, g x = g x0 + d * (x - x0)) : HasDerivAt g d x0 := by
  have : g = fun x => g x0 + d * (x - x0) := funext h
  rw [this]
  exact ((((hasDerivAt_id x0).sub_const x0).const_mul d).const_add (g x0)).congr_deriv (by simp)

theorem hasDerivAt_of_quadratic {g : ℝ → ℝ} {d x0 : ℝ} (c : ℝ) (h : ∀ x, g x = g x0 + d * (x - x0) + c * (x - x0) ^ 2) :
    HasDerivAt g d x0 := by
  have : g = fun x => g x0 + d * (x - x0) + c * (x - x0) ^ 2 := funext h
  rw [this]
  have h1 := ((hasDerivAt_id x0).sub_const x0).const_mul d
  have h2 := ((((hasDerivAt_id x0).sub_const x0).fun_pow 2).const_mul c)
  exact ((h1.const_add (g x0)).fun_add h2).congr_deriv (by simp)

/-! ODEs written out -/
variable {K : Type*} [Field K]

theorem dcOde_eq (mp : DcParams K) (s u : Fin 2 → K) (w : K) : dcOde mp s u w =
    ![(-mp.ra * s 0 - mp.lePrime * (w * s 1) + u 0) / mp.la, (-mp.re * s 1 + u 1) / mp.le] := by
  funext i
  fin_cases i <;> simp [dcOde, dcConstants, rowsDiv, Matrix.mulVec, dotProduct, Fin.sum_univ_succ] <;> ring

theorem seriesOde_eq (mp : DcParams K) (s u : Fin 1 → K) (w : K) : seriesOde mp s u w =
    ![(-(mp.ra + mp.re) * s 0 - mp.lePrime * (w * s 0) + u 0) / (mp.la + mp.le)] := by
  funext i
  fin_cases i; simp [seriesOde, seriesConstants, rowsDiv, Matrix.mulVec, dotProduct, Fin.sum_univ_succ]; ring

theorem permExOde_eq (mp : PermExParams K) (s u : Fin 1 → K) (w : K) : permExOde mp s u w =
    ![(-mp.psiE * w - mp.ra * s 0 + u 0) / mp.la] := by
  funext i
  fin_cases i; simp [permExOde, permExConstants, rowsDiv, Matrix.mulVec, dotProduct, Fin.sum_univ_succ]; ring

theorem pmsmOde_eq (mp : SyncParams K) (s : Fin 3 → K) (u : Fin 2 → K) (w : K) : syncOde (pmsmConstants mp) s u w =
    ![(-mp.rs * s 0 + u 0 + mp.lq * mp.p * (w * s 1)) / mp.ld,
      (-mp.psiP * mp.p * w - mp.rs * s 1 + u 1 - mp.ld * mp.p * (w * s 0)) / mp.lq, mp.p * w] := by
  funext i
  fin_cases i <;>
    simp [syncOde, pmsmConstants, rowsDiv, Matrix.mulVec, dotProduct, Fin.sum_univ_succ] <;> ring

theorem synrmOde_eq (mp : SyncParams K) (s : Fin 3 → K) (u : Fin 2 → K) (w : K) : syncOde (synrmConstants mp) s u w =
    ![(-mp.rs * s 0 + u 0 + mp.lq * mp.p * (w * s 1)) / mp.ld,
      (-mp.rs * s 1 + u 1 - mp.ld * mp.p * (w * s 0)) / mp.lq, mp.p * w] := by
  funext i
  fin_cases i <;>
    simp [syncOde, synrmConstants, rowsDiv, Matrix.mulVec, dotProduct, Fin.sum_univ_succ] <;> ring

theorem eesmOde_eq (mp : EesmParams K) (s : Fin 4 → K) (u : Fin 3 → K) (w : K) : eesmOde mp s u w =
    ![(-mp.rs / mp.sigma * s 0 + mp.lM * mp.rE / (mp.sigma * mp.lE) * mp.ik * s 2 + 1 / mp.sigma * u 0
        - mp.lM * mp.k / (mp.sigma * mp.lE) * u 2 + mp.lq * mp.p / mp.sigma * (w * s 1)) / mp.ld,
      (-mp.rs * s 1 + u 1 - mp.ld * mp.p * (w * s 0) - mp.p * mp.lM * mp.ik * (w * s 2)) / mp.lq,
      (mp.lM * mp.rs / (mp.sigma * mp.ld) * s 0 - mp.rE / mp.sigma * mp.ik * s 2 - mp.lM / (mp.sigma * mp.ld) * u 0
        + mp.k / mp.sigma * u 2 - mp.p * mp.lM * mp.lq / (mp.sigma * mp.ld) * (w * s 1)) / (mp.lE * mp.ik),
      mp.p * w] := by
  funext i
  fin_cases i <;>
    simp [eesmOde, eesmConstants, rowsDiv, Matrix.mulVec, dotProduct, Fin.sum_univ_succ] <;> ring

theorem imOde_eq (mp : ImParams K) (s : Fin 5 → K) (u : Matrix (Fin 2) (Fin 2) K) (w : K) : imOde mp s u w =
    ![-1 / mp.tauSig * s 0 + mp.lm * mp.rr / (mp.sigma * mp.ls * mp.lr ^ 2) * s 2
        + mp.lm * mp.p / (mp.sigma * mp.lr * mp.ls) * (w * s 3) + 1 / (mp.sigma * mp.ls) * u 0 0
        - mp.lm / (mp.sigma * mp.lr * mp.ls) * u 1 0,
      -1 / mp.tauSig * s 1 + mp.lm * mp.rr / (mp.sigma * mp.ls * mp.lr ^ 2) * s 3
        - mp.lm * mp.p / (mp.sigma * mp.lr * mp.ls) * (w * s 2) + 1 / (mp.sigma * mp.ls) * u 0 1
        - mp.lm / (mp.sigma * mp.lr * mp.ls) * u 1 1,
      mp.lm / mp.tauR * s 0 - 1 / mp.tauR * s 2 - mp.p * (w * s 3) + u 1 0,
      mp.lm / mp.tauR * s 1 - 1 / mp.tauR * s 3 + mp.p * (w * s 2) + u 1 1,
      mp.p * w] := by
  funext i
  fin_cases i <;>
    simp [imOde, imConstants, Matrix.mulVec, dotProduct, Fin.sum_univ_succ] <;> ring

end GEM.Motor

namespace GEM.Motor

/-- The computed d current of the PMSM for `l_d < l_q`, written with `m = psi_p / (l_q - l_d)`. -/
theorem pmsmTorqueLimit_eq (mp : SyncParams ℝ) (iN iSq : ℝ) (hd : mp.ld < mp.lq) (hpsi : 0 ≤ mp.psiP) :
    ∃ m b : ℝ, 0 ≤ m ∧ 0 ≤ b ∧ iN ^ 2 = 2 * b ^ 2 + m * b ∧ mp.psiP = (mp.lq - mp.ld) * m ∧
      pmsmTorqueLimit mp iN iSq = 3 / 2 * mp.p * ((mp.lq - mp.ld) * (m + b)) * √(b * (m + b)) := by
  have hD : 0 < mp.lq - mp.ld := by linarith
  set m := mp.psiP / (mp.lq - mp.ld) with hm
  have hm0 : 0 ≤ m := div_nonneg hpsi hD.le
  have hpm : mp.psiP = (mp.lq - mp.ld) * m := by rw [hm]; field_simp
  set r := √((m / 4) ^ 2 + iN ^ 2 / 2) with hr
  have hr2 : r ^ 2 = (m / 4) ^ 2 + iN ^ 2 / 2 := Real.sq_sqrt (by positivity)
  have hrm : m / 4 ≤ r := Real.le_sqrt_of_sq_le (by nlinarith [sq_nonneg iN])
  refine ⟨m, r - m / 4, hm0, by linarith, by nlinarith, hpm, ?_⟩
  unfold pmsmTorqueLimit
  rw [if_neg (ne_of_lt hd)]
  have e1 : mp.psiP / (2 * (mp.ld - mp.lq)) = -(m / 2) := by
    rw [hm]; have : mp.ld - mp.lq ≠ 0 := by linarith
    have : mp.lq - mp.ld ≠ 0 := by linarith
    field_simp; ring
  simp only [e1]
  have e2 : (-(m / 2) / 2) ^ 2 - -(iN ^ 2) / 2 = (m / 4) ^ 2 + iN ^ 2 / 2 := by ring
  have e3 : -(-(m / 2)) / 2 = m / 4 := by ring
  rw [e2, e3, ← hr]
  have e4 : iN ^ 2 - (m / 4 - r) ^ 2 = (r - m / 4) * (m + (r - m / 4)) := by nlinarith
  rw [e4]
  simp only [pmsmTorque]
  simp
  left; left
  rw [hpm]; ring

/-- Optimality certificate of the maximum torque per ampere point. -/
theorem mtpc_certificate {m b d q : ℝ} (hm : 0 ≤ m) (hb : 0 ≤ b) (h : d ^ 2 + q ^ 2 ≤ 2 * b ^ 2 + m * b) :
    |(m - d) * q| ≤ (m + b) * √(b * (m + b)) := by
  have h0 : 0 ≤ b * (m + b) := by positivity
  apply abs_le_of_sq_le_sq _ (by positivity)
  have e : ((m + b) * √(b * (m + b))) ^ 2 = b * (m + b) ^ 3 := by rw [mul_pow, Real.sq_sqrt h0]; ring
  rw [e]
  have h1 : (m - d) ^ 2 * q ^ 2 ≤ (m - d) ^ 2 * (2 * b ^ 2 + m * b - d ^ 2) :=
    mul_le_mul_of_nonneg_left (by linarith) (sq_nonneg _)
  have h2 : 0 ≤ (d + b) ^ 2 * ((d - m - b) ^ 2 + m * b) := by positivity
  nlinarith

end GEM.Motor
