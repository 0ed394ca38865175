import Mathlib.Data.Matrix.Mul
import Mathlib.LinearAlgebra.Matrix.Notation
import Mathlib.Analysis.SpecialFunctions.Trigonometric.Basic
import Verif.Model.Basic

/-!
# Model of `physical_systems/electric_motors`

Motor states, voltages and Jacobian rows are vectors `Fin n → K`, the arrays `_model_constants` are matrices.
`1.5` is `3/2`.  Parameter dictionaries are structures.  Everything the code computes with `+ - * /` is modelled over an
arbitrary field; functions that call `np.sqrt`, `cos`, `sin` over `ℝ`.
-/

namespace GEM.Motor

variable {K : Type*} [Field K]

/-- `constants[i] = constants[i] / d[i]`: the row scaling at the end of every `_update_model`. -/
def rowsDiv {m n : ℕ} (M : Matrix (Fin m) (Fin n) K) (d : Fin m → K) : Matrix (Fin m) (Fin n) K :=
  Matrix.of fun i j => M i j / d i

/-- Return value of every `electrical_jacobian`: derivatives of the state derivatives over the states, over omega, and of
the torque over the states. -/
structure Jac (K : Type*) (n : ℕ) where
  dx : Matrix (Fin n) (Fin n) K
  dw : Fin n → K
  dT : Fin n → K

/-! ## DC motors -/

/-- Parameters of the DC motors with an excitation winding
(/repo/src/gym_electric_motor/physical_systems/electric_motors/dc_motor.py:64-71). -/
structure DcParams (K : Type*) where
  ra : K
  re : K
  la : K
  lePrime : K
  le : K

/-- `DcMotor._update_model` (dc_motor.py:96-104). -/
def dcConstants (mp : DcParams K) : Matrix (Fin 2) (Fin 5) K :=
  rowsDiv !![-mp.ra, 0, -mp.lePrime, 1, 0; 0, -mp.re, 0, 0, 1] ![mp.la, mp.le]

/-- `DcMotor.electrical_ode` (dc_motor.py:114-127): state `[i_a, i_e]`, input `[u_a, u_e]`. -/
def dcOde (mp : DcParams K) (s : Fin 2 → K) (u : Fin 2 → K) (omega : K) : Fin 2 → K :=
  (dcConstants mp).mulVec ![s 0, s 1, omega * s 1, u 0, u 1]

/-- `DcMotor.torque` (dc_motor.py:106-108). -/
def dcTorque (mp : DcParams K) (s : Fin 2 → K) : K := mp.lePrime * s 0 * s 1

/-- `DcMotor.i_in` (dc_motor.py:110-112). -/
def dcIIn (s : Fin 2 → K) : List K := [s 0, s 1]

/-- `DcExternallyExcitedMotor.electrical_jacobian` (dc_externally_excited_motor.py:10-26). -/
def extExJacobian (mp : DcParams K) (s : Fin 2 → K) (omega : K) : Jac K 2 where
  dx := !![-mp.ra / mp.la, -mp.lePrime / mp.la * omega; 0, -mp.re / mp.le]
  dw := ![-mp.lePrime * s 1 / mp.la, 0]
  dT := ![mp.lePrime * s 1, mp.lePrime * s 0]

/-- `DcShuntMotor.electrical_ode` (dc_shunt_motor.py:72-74): the one input voltage feeds both windings. -/
def shuntOde (mp : DcParams K) (s : Fin 2 → K) (u : Fin 1 → K) (omega : K) : Fin 2 → K :=
  dcOde mp s ![u 0, u 0] omega

/-- `DcShuntMotor.i_in` (dc_shunt_motor.py:68-70). -/
def shuntIIn (s : Fin 2 → K) : List K := [s 0 + s 1]

/-- `DcShuntMotor.electrical_jacobian` (dc_shunt_motor.py:76-92). -/
def shuntJacobian (mp : DcParams K) (s : Fin 2 → K) (omega : K) : Jac K 2 where
  dx := !![-mp.ra / mp.la, -mp.lePrime / mp.la * omega; 0, -mp.re / mp.le]
  dw := ![-mp.lePrime * s 1 / mp.la, 0]
  dT := ![mp.lePrime * s 1, mp.lePrime * s 0]

/-- `DcSeriesMotor._update_model` (dc_series_motor.py:68-72). -/
def seriesConstants (mp : DcParams K) : Matrix (Fin 1) (Fin 3) K :=
  rowsDiv !![-mp.ra - mp.re, -mp.lePrime, 1] ![mp.la + mp.le]

/-- `DcSeriesMotor.electrical_ode` (dc_series_motor.py:78-83). -/
def seriesOde (mp : DcParams K) (s : Fin 1 → K) (u : Fin 1 → K) (omega : K) : Fin 1 → K :=
  (seriesConstants mp).mulVec ![s 0, omega * s 0, u 0]

/-- `DcSeriesMotor.torque` (dc_series_motor.py:74-76). -/
def seriesTorque (mp : DcParams K) (s : Fin 1 → K) : K := dcTorque mp ![s 0, s 0]

/-- `DcSeriesMotor.electrical_jacobian` (dc_series_motor.py:116-122). -/
def seriesJacobian (mp : DcParams K) (s : Fin 1 → K) (omega : K) : Jac K 1 where
  dx := !![-(mp.ra + mp.re + mp.lePrime * omega) / (mp.la + mp.le)]
  dw := ![-mp.lePrime * s 0 / (mp.la + mp.le)]
  dT := ![2 * mp.lePrime * s 0]

/-- Parameters of the permanently excited DC motor (dc_permanently_excited_motor.py:48-53). -/
structure PermExParams (K : Type*) where
  ra : K
  la : K
  psiE : K

/-- `DcPermanentlyExcitedMotor._update_model` (dc_permanently_excited_motor.py:71-75). -/
def permExConstants (mp : PermExParams K) : Matrix (Fin 1) (Fin 3) K := rowsDiv !![-mp.psiE, -mp.ra, 1] ![mp.la]

/-- `DcPermanentlyExcitedMotor.electrical_ode` (dc_permanently_excited_motor.py:81-84). -/
def permExOde (mp : PermExParams K) (s : Fin 1 → K) (u : Fin 1 → K) (omega : K) : Fin 1 → K :=
  (permExConstants mp).mulVec ![omega, s 0, u 0]

/-- `DcPermanentlyExcitedMotor.torque` (dc_permanently_excited_motor.py:67-69). -/
def permExTorque (mp : PermExParams K) (s : Fin 1 → K) : K := mp.psiE * s 0

/-- `DcPermanentlyExcitedMotor.electrical_jacobian` (dc_permanently_excited_motor.py:86-92). -/
def permExJacobian (mp : PermExParams K) (_s : Fin 1 → K) (_omega : K) : Jac K 1 where
  dx := !![-mp.ra / mp.la]
  dw := ![-mp.psiE / mp.la]
  dT := ![mp.psiE]

/-! ## Synchronous motors -/

/-- Parameters of PMSM and SynRM (permanent_magnet_synchronous_motor.py:85-92, synchronous_reluctance_motor.py:84-90);
the SynRM has no `psi_p`. -/
structure SyncParams (K : Type*) where
  p : K
  ld : K
  lq : K
  rs : K
  psiP : K

/-- `PermanentMagnetSynchronousMotor._update_model` (permanent_magnet_synchronous_motor.py:107-119). -/
def pmsmConstants (mp : SyncParams K) : Matrix (Fin 3) (Fin 7) K :=
  rowsDiv !![0, -mp.rs, 0, 1, 0, 0, mp.lq * mp.p;
             -mp.psiP * mp.p, 0, -mp.rs, 0, 1, -mp.ld * mp.p, 0;
             mp.p, 0, 0, 0, 0, 0, 0] ![mp.ld, mp.lq, 1]

/-- `SynchronousReluctanceMotor._update_model` (synchronous_reluctance_motor.py:117-130). -/
def synrmConstants (mp : SyncParams K) : Matrix (Fin 3) (Fin 7) K :=
  rowsDiv !![0, -mp.rs, 0, 1, 0, 0, mp.lq * mp.p;
             0, 0, -mp.rs, 0, 1, -mp.ld * mp.p, 0;
             mp.p, 0, 0, 0, 0, 0, 0] ![mp.ld, mp.lq, 1]

/-- `SynchronousMotor.electrical_ode` (synchronous_motor.py:143-168): state `[i_sd, i_sq, epsilon]`, input
`[u_sd, u_sq]`. -/
def syncOde (c : Matrix (Fin 3) (Fin 7) K) (s : Fin 3 → K) (u : Fin 2 → K) (omega : K) : Fin 3 → K :=
  c.mulVec ![omega, s 0, s 1, u 0, u 1, omega * s 0, omega * s 1]

/-- `PermanentMagnetSynchronousMotor.torque` (permanent_magnet_synchronous_motor.py:134-139). -/
def pmsmTorque (mp : SyncParams K) (s : Fin 3 → K) : K :=
  3 / 2 * mp.p * (mp.psiP + (mp.ld - mp.lq) * s 0) * s 1

/-- `SynchronousReluctanceMotor.torque` (synchronous_reluctance_motor.py:136-139). -/
def synrmTorque (mp : SyncParams K) (s : Fin 3 → K) : K := 3 / 2 * mp.p * ((mp.ld - mp.lq) * s 0) * s 1

/-- `PermanentMagnetSynchronousMotor.electrical_jacobian` (permanent_magnet_synchronous_motor.py:141-173). -/
def pmsmJacobian (mp : SyncParams K) (s : Fin 3 → K) (omega : K) : Jac K 3 where
  dx := !![-mp.rs / mp.ld, mp.lq / mp.ld * omega * mp.p, 0;
           -mp.ld / mp.lq * omega * mp.p, -mp.rs / mp.lq, 0;
           0, 0, 0]
  dw := ![mp.p * mp.lq / mp.ld * s 1, -mp.p * mp.ld / mp.lq * s 0 - mp.p * mp.psiP / mp.lq, mp.p]
  dT := ![3 / 2 * mp.p * (mp.ld - mp.lq) * s 1, 3 / 2 * mp.p * (mp.psiP + (mp.ld - mp.lq) * s 0), 0]

/-- `SynchronousReluctanceMotor.electrical_jacobian` (synchronous_reluctance_motor.py:141-173). -/
def synrmJacobian (mp : SyncParams K) (s : Fin 3 → K) (omega : K) : Jac K 3 where
  dx := !![-mp.rs / mp.ld, mp.lq / mp.ld * mp.p * omega, 0;
           -mp.ld / mp.lq * mp.p * omega, -mp.rs / mp.lq, 0;
           0, 0, 0]
  dw := ![mp.p * mp.lq / mp.ld * s 1, -mp.p * mp.ld / mp.lq * s 0, mp.p]
  dT := ![3 / 2 * mp.p * (mp.ld - mp.lq) * s 1, 3 / 2 * mp.p * (mp.ld - mp.lq) * s 0, 0]

/-- `PermanentMagnetSynchronousMotor._torque_limit` (permanent_magnet_synchronous_motor.py:121-132) with
`iNominal = nominal_values["i"]`, `iSqLimit = limits["i_sq"]`.  Where numpy yields `nan` (negative radicand) the model
has `√x = 0`; the theorems state the sign of the radicand. -/
noncomputable def pmsmTorqueLimit (mp : SyncParams ℝ) (iNominal iSqLimit : ℝ) : ℝ :=
  if mp.ld = mp.lq then pmsmTorque mp ![0, iSqLimit, 0]
  else
    let p := mp.psiP / (2 * (mp.ld - mp.lq))
    let q := -(iNominal ^ 2) / 2
    let iD := -p / 2 - √((p / 2) ^ 2 - q)
    let iQ := √(iNominal ^ 2 - iD ^ 2)
    pmsmTorque mp ![iD, iQ, 0]

/-- `SynchronousReluctanceMotor._torque_limit` (synchronous_reluctance_motor.py:132-134). -/
noncomputable def synrmTorqueLimit (mp : SyncParams ℝ) (iSdLimit iSqLimit : ℝ) : ℝ :=
  synrmTorque mp ![iSdLimit / √2, iSqLimit / √2, 0]

/-- Parameters of the EESM (externally_excited_synchronous_motor.py:101-111). -/
structure EesmParams (K : Type*) where
  p : K
  ld : K
  lq : K
  lm : K
  le : K
  rs : K
  re : K
  k : K

/-- Derived entries written by `_update_model` (externally_excited_synchronous_motor.py:130-135). -/
def EesmParams.rE (mp : EesmParams K) : K := mp.k ^ 2 * 3 / 2 * mp.re
/-- `l_M` (externally_excited_synchronous_motor.py:131). -/
def EesmParams.lM (mp : EesmParams K) : K := mp.k * 3 / 2 * mp.lm
/-- `l_E` (externally_excited_synchronous_motor.py:132). -/
def EesmParams.lE (mp : EesmParams K) : K := mp.k ^ 2 * 3 / 2 * mp.le
/-- `i_k_rs` (externally_excited_synchronous_motor.py:134). -/
def EesmParams.ik (mp : EesmParams K) : K := 2 / 3 / mp.k
/-- `sigma` (externally_excited_synchronous_motor.py:135). -/
def EesmParams.sigma (mp : EesmParams K) : K := 1 - mp.lM ^ 2 / (mp.ld * mp.lE)

/-- `_update_model` (externally_excited_synchronous_motor.py:125-149). -/
def eesmConstants (mp : EesmParams K) : Matrix (Fin 4) (Fin 10) K :=
  rowsDiv
    !![0, -mp.rs / mp.sigma, 0, mp.lM * mp.rE / (mp.sigma * mp.lE) * mp.ik, 1 / mp.sigma, 0,
         -mp.lM * mp.k / (mp.sigma * mp.lE), 0, mp.lq * mp.p / mp.sigma, 0;
       0, 0, -mp.rs, 0, 0, 1, 0, -mp.ld * mp.p, 0, -mp.p * mp.lM * mp.ik;
       0, mp.lM * mp.rs / (mp.sigma * mp.ld), 0, -mp.rE / mp.sigma * mp.ik, -mp.lM / (mp.sigma * mp.ld), 0,
         mp.k / mp.sigma, 0, -mp.p * mp.lM * mp.lq / (mp.sigma * mp.ld), 0;
       mp.p, 0, 0, 0, 0, 0, 0, 0, 0, 0]
    ![mp.ld, mp.lq, mp.lE * mp.ik, 1]

/-- `electrical_ode` (externally_excited_synchronous_motor.py:153-182): state `[i_sd, i_sq, i_e, epsilon]`, input
`[u_sd, u_sq, u_e]`. -/
def eesmOde (mp : EesmParams K) (s : Fin 4 → K) (u : Fin 3 → K) (omega : K) : Fin 4 → K :=
  (eesmConstants mp).mulVec ![omega, s 0, s 1, s 2, u 0, u 1, u 2, omega * s 0, omega * s 1, omega * s 2]

/-- `torque` (externally_excited_synchronous_motor.py:200-203). -/
def eesmTorque (mp : EesmParams K) (s : Fin 4 → K) : K :=
  3 / 2 * mp.p * (mp.lM * s 2 * mp.ik + (mp.ld - mp.lq) * s 0) * s 1

/-- `electrical_jacobian` (externally_excited_synchronous_motor.py:205-228). -/
def eesmJacobian (mp : EesmParams K) (s : Fin 4 → K) (omega : K) : Jac K 4 where
  dx := !![-mp.rs / (mp.ld * mp.sigma), mp.lq / (mp.sigma * mp.ld) * omega * mp.p,
             mp.lM * mp.rE / (mp.sigma * mp.ld * mp.lE) * mp.ik, 0;
           -mp.ld / mp.lq * omega * mp.p, -mp.rs / mp.lq, -omega * mp.p * mp.lM / mp.lq * mp.ik, 0;
           mp.lM * mp.rs / (mp.sigma * mp.ld * mp.lE * mp.ik),
             -omega * mp.p * mp.lM * mp.lq / (mp.sigma * mp.ld * mp.lE * mp.ik), -mp.rE / (mp.sigma * mp.lE), 0;
           0, 0, 0, 0]
  dw := ![mp.p * mp.lq / (mp.ld * mp.sigma) * s 1,
          -mp.p * mp.ld / mp.lq * s 0 - mp.p * mp.lM / mp.lq * s 2 * mp.ik,
          -mp.p * mp.lM * mp.lq / (mp.sigma * mp.ld * mp.lE * mp.ik) * s 1,
          mp.p]
  dT := ![3 / 2 * mp.p * (mp.ld - mp.lq) * s 1,
          3 / 2 * mp.p * (mp.lM * s 2 * mp.ik + (mp.ld - mp.lq) * s 0),
          3 / 2 * mp.p * mp.lM * mp.ik * s 1,
          0]

/-- `_torque_limit` (externally_excited_synchronous_motor.py:184-198). -/
noncomputable def eesmTorqueLimit (mp : EesmParams ℝ) (iNominal iSqLimit iELimit : ℝ) : ℝ :=
  if mp.ld = mp.lq then eesmTorque mp ![0, iSqLimit, iELimit, 0]
  else
    let p := mp.lM * iNominal / (2 * (mp.ld - mp.lq))
    let q := -iNominal ^ 2 / 2
    let iD := if mp.ld < mp.lq then -p / 2 - √((p / 2) ^ 2 - q) else -p / 2 + √((p / 2) ^ 2 - q)
    let iQ := √(iNominal ^ 2 - iD ^ 2)
    eesmTorque mp ![iD, iQ, iELimit, 0]

/-! ## Induction motors -/

/-- Parameters of SCIM and DFIM (induction_motor.py:105-113). -/
structure ImParams (K : Type*) where
  p : K
  lm : K
  lsigs : K
  lsigr : K
  rs : K
  rr : K

/-- `l_s` (induction_motor.py:290). -/
def ImParams.ls (mp : ImParams K) : K := mp.lm + mp.lsigs
/-- `l_r` (induction_motor.py:291). -/
def ImParams.lr (mp : ImParams K) : K := mp.lm + mp.lsigr
/-- `sigma` (induction_motor.py:292). -/
def ImParams.sigma (mp : ImParams K) : K := (mp.ls * mp.lr - mp.lm ^ 2) / (mp.ls * mp.lr)
/-- `tau_r` (induction_motor.py:293). -/
def ImParams.tauR (mp : ImParams K) : K := mp.lr / mp.rr
/-- `tau_sig` (induction_motor.py:294). -/
def ImParams.tauSig (mp : ImParams K) : K := mp.sigma * mp.ls / (mp.rs + mp.rr * mp.lm ^ 2 / mp.lr ^ 2)

/-- `InductionMotor._update_model` (induction_motor.py:287-312). -/
def imConstants (mp : ImParams K) : Matrix (Fin 5) (Fin 11) K :=
  !![0, -1 / mp.tauSig, 0, mp.lm * mp.rr / (mp.sigma * mp.ls * mp.lr ^ 2), 0, 0,
       mp.lm * mp.p / (mp.sigma * mp.lr * mp.ls), 1 / (mp.sigma * mp.ls), 0, -mp.lm / (mp.sigma * mp.lr * mp.ls), 0;
     0, 0, -1 / mp.tauSig, 0, mp.lm * mp.rr / (mp.sigma * mp.ls * mp.lr ^ 2),
       -mp.lm * mp.p / (mp.sigma * mp.lr * mp.ls), 0, 0, 1 / (mp.sigma * mp.ls), 0, -mp.lm / (mp.sigma * mp.lr * mp.ls);
     0, mp.lm / mp.tauR, 0, -1 / mp.tauR, 0, 0, -mp.p, 0, 0, 1, 0;
     0, 0, mp.lm / mp.tauR, 0, -1 / mp.tauR, mp.p, 0, 0, 0, 0, 1;
     mp.p, 0, 0, 0, 0, 0, 0, 0, 0, 0, 0]

/-- `InductionMotor.electrical_ode` (induction_motor.py:187-217): state
`[i_salpha, i_sbeta, psi_ralpha, psi_rbeta, epsilon]`, input `[[u_salpha, u_sbeta], [u_ralpha, u_rbeta]]`. -/
def imOde (mp : ImParams K) (s : Fin 5 → K) (u : Matrix (Fin 2) (Fin 2) K) (omega : K) : Fin 5 → K :=
  (imConstants mp).mulVec
    ![omega, s 0, s 1, s 2, s 3, omega * s 2, omega * s 3, u 0 0, u 0 1, u 1 0, u 1 1]

/-- `SquirrelCageInductionMotor.electrical_ode` (squirrel_cage_induction_motor.py:121-129): rotor voltages zero. -/
def scimOde (mp : ImParams K) (s : Fin 5 → K) (u : Fin 2 → K) (omega : K) : Fin 5 → K :=
  imOde mp s !![u 0, u 1; 0, 0] omega

/-- `InductionMotor.torque` (induction_motor.py:236-248). -/
def imTorque (mp : ImParams K) (s : Fin 5 → K) : K :=
  3 / 2 * mp.p * mp.lm / (mp.lm + mp.lsigr) * (s 2 * s 1 - s 3 * s 0)

/-- `InductionMotor._torque_limit` (induction_motor.py:223-234). -/
def imTorqueLimit (mp : ImParams K) (iSdLimit iSqLimit : K) : K :=
  3 / 2 * mp.p * mp.lm ^ 2 / (mp.lm + mp.lsigr) * iSdLimit * iSqLimit / 2

/-- `InductionMotor.electrical_jacobian` (induction_motor.py:315-364). -/
def imJacobian (mp : ImParams K) (s : Fin 5 → K) (omega : K) : Jac K 5 where
  dx := !![-1 / mp.tauSig, 0, mp.lm * mp.rr / (mp.sigma * mp.ls * mp.lr ^ 2),
             omega * mp.lm * mp.p / (mp.sigma * mp.lr * mp.ls), 0;
           0, -1 / mp.tauSig, -omega * mp.lm * mp.p / (mp.sigma * mp.lr * mp.ls),
             mp.lm * mp.rr / (mp.sigma * mp.ls * mp.lr ^ 2), 0;
           mp.lm / mp.tauR, 0, -1 / mp.tauR, -omega * mp.p, 0;
           0, mp.lm / mp.tauR, omega * mp.p, -1 / mp.tauR, 0;
           0, 0, 0, 0, 0]
  dw := ![mp.lm * mp.p / (mp.sigma * mp.lr * mp.ls) * s 3, -mp.lm * mp.p / (mp.sigma * mp.lr * mp.ls) * s 2,
          -mp.p * s 3, mp.p * s 2, mp.p]
  dT := ![-s 3 * 3 / 2 * mp.p * mp.lm / mp.lr, s 2 * 3 / 2 * mp.p * mp.lm / mp.lr,
          s 1 * 3 / 2 * mp.p * mp.lm / mp.lr, -s 0 * 3 / 2 * mp.p * mp.lm / mp.lr, 0]

/-! ## Coordinate transforms -/

/-- `ThreePhaseMotor._t23`, `t_23` (three_phase_motor.py:17-20, 32-42). -/
noncomputable def t23 (v : Fin 3 → ℝ) : Fin 2 → ℝ :=
  ((2 / 3 : ℝ) • !![1, -(1 / 2), -(1 / 2); 0, 1 / 2 * √3, -(1 / 2 * √3)]).mulVec v

/-- `ThreePhaseMotor._t32`, `t_32` (three_phase_motor.py:23-28, 45-55). -/
noncomputable def t32 (v : Fin 2 → ℝ) : Fin 3 → ℝ :=
  (!![1, 0; -(1 / 2), 1 / 2 * √3; -(1 / 2), -(1 / 2 * √3)] : Matrix (Fin 3) (Fin 2) ℝ).mulVec v

/-- `ThreePhaseMotor.q` (three_phase_motor.py:58-71): dq to alpha/beta. -/
noncomputable def q (v : Fin 2 → ℝ) (eps : ℝ) : Fin 2 → ℝ :=
  ![Real.cos eps * v 0 - Real.sin eps * v 1, Real.sin eps * v 0 + Real.cos eps * v 1]

/-- `ThreePhaseMotor.q_inv` (three_phase_motor.py:74-88). -/
noncomputable def qInv (v : Fin 2 → ℝ) (eps : ℝ) : Fin 2 → ℝ := q v (-eps)

/-- `ThreePhaseMotor.q_me` (three_phase_motor.py:90-101): with the mechanical angle. -/
noncomputable def qMe (p : ℝ) (v : Fin 2 → ℝ) (eps : ℝ) : Fin 2 → ℝ := q v (eps * p)

/-- `ThreePhaseMotor.q_inv_me` (three_phase_motor.py:103-118). -/
noncomputable def qInvMe (p : ℝ) (v : Fin 2 → ℝ) (eps : ℝ) : Fin 2 → ℝ := qMe p v (-eps)

end GEM.Motor
