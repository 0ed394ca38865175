import Verif.Proofs.Motors
import Mathlib.Analysis.SpecialFunctions.Sqrt
import Mathlib.Analysis.SpecialFunctions.ExpDeriv

/-!
# Properties of the electric motors (C27, C28, C29, C32)
-/

namespace GEM.Props

open GEM.Motor GEM.Spec

/-! ## C27: Jacobians -/

section jacobian

/-- C27, externally excited DC motor. -/
theorem c27_extex (mp : DcParams ℝ) (s u : Fin 2 → ℝ) (w : ℝ) :
    IsMotorJacobian (fun s w => dcOde mp s u w) (dcTorque mp) (extExJacobian mp s w).dx (extExJacobian mp s w).dw
      (extExJacobian mp s w).dT s w := by
  refine ⟨?_, ?_, ?_⟩
  · intro i j
    fin_cases i <;> fin_cases j <;> apply hasDerivAt_of_affine <;> intro x <;>
      simp [dcOde_eq, extExJacobian, Function.update] <;> ring
  · intro i
    fin_cases i <;> apply hasDerivAt_of_affine <;> intro x <;> simp [dcOde_eq, extExJacobian] <;> ring
  · intro j
    fin_cases j <;> apply hasDerivAt_of_affine <;> intro x <;> simp [dcTorque, extExJacobian, Function.update] <;> ring

/-- C27, shunt DC motor. -/
theorem c27_shunt (mp : DcParams ℝ) (s : Fin 2 → ℝ) (u : Fin 1 → ℝ) (w : ℝ) :
    IsMotorJacobian (fun s w => shuntOde mp s u w) (dcTorque mp) (shuntJacobian mp s w).dx (shuntJacobian mp s w).dw
      (shuntJacobian mp s w).dT s w := by
  refine ⟨?_, ?_, ?_⟩
  · intro i j
    fin_cases i <;> fin_cases j <;> apply hasDerivAt_of_affine <;> intro x <;>
      simp [shuntOde, dcOde_eq, shuntJacobian, Function.update] <;> ring
  · intro i
    fin_cases i <;> apply hasDerivAt_of_affine <;> intro x <;> simp [shuntOde, dcOde_eq, shuntJacobian] <;> ring
  · intro j
    fin_cases j <;> apply hasDerivAt_of_affine <;> intro x <;> simp [dcTorque, shuntJacobian, Function.update] <;> ring

/-- C27, series DC motor. -/
theorem c27_series (mp : DcParams ℝ) (s u : Fin 1 → ℝ) (w : ℝ) :
    IsMotorJacobian (fun s w => seriesOde mp s u w) (seriesTorque mp) (seriesJacobian mp s w).dx
      (seriesJacobian mp s w).dw (seriesJacobian mp s w).dT s w := by
  refine ⟨?_, ?_, ?_⟩
  · intro i j
    fin_cases i; fin_cases j; apply hasDerivAt_of_affine; intro x
    simp [seriesOde_eq, seriesJacobian, Function.update]; ring
  · intro i
    fin_cases i; apply hasDerivAt_of_affine; intro x; simp [seriesOde_eq, seriesJacobian]; ring
  · intro j
    fin_cases j; apply hasDerivAt_of_quadratic mp.lePrime; intro x
    simp [seriesTorque, dcTorque, seriesJacobian, Function.update]; ring

/-- C27, permanently excited DC motor. -/
theorem c27_permex (mp : PermExParams ℝ) (s u : Fin 1 → ℝ) (w : ℝ) :
    IsMotorJacobian (fun s w => permExOde mp s u w) (permExTorque mp) (permExJacobian mp s w).dx
      (permExJacobian mp s w).dw (permExJacobian mp s w).dT s w := by
  refine ⟨?_, ?_, ?_⟩
  · intro i j
    fin_cases i; fin_cases j; apply hasDerivAt_of_affine; intro x
    simp [permExOde_eq, permExJacobian, Function.update]; ring
  · intro i
    fin_cases i; apply hasDerivAt_of_affine; intro x; simp [permExOde_eq, permExJacobian]; ring
  · intro j
    fin_cases j; apply hasDerivAt_of_affine; intro x
    simp [permExTorque, permExJacobian, Function.update]; ring

/-- C27, PMSM. -/
theorem c27_pmsm (mp : SyncParams ℝ) (s : Fin 3 → ℝ) (u : Fin 2 → ℝ) (w : ℝ) :
    IsMotorJacobian (fun s w => syncOde (pmsmConstants mp) s u w) (pmsmTorque mp) (pmsmJacobian mp s w).dx
      (pmsmJacobian mp s w).dw (pmsmJacobian mp s w).dT s w := by
  refine ⟨?_, ?_, ?_⟩
  · intro i j
    fin_cases i <;> fin_cases j <;> apply hasDerivAt_of_affine <;> intro x <;>
      simp [pmsmOde_eq, pmsmJacobian, Function.update] <;> ring
  · intro i
    fin_cases i <;> apply hasDerivAt_of_affine <;> intro x <;> simp [pmsmOde_eq, pmsmJacobian] <;> ring
  · intro j
    fin_cases j <;> apply hasDerivAt_of_affine <;> intro x <;> simp [pmsmTorque, pmsmJacobian, Function.update] <;> ring

/-- C27, SynRM. -/
theorem c27_synrm (mp : SyncParams ℝ) (s : Fin 3 → ℝ) (u : Fin 2 → ℝ) (w : ℝ) :
    IsMotorJacobian (fun s w => syncOde (synrmConstants mp) s u w) (synrmTorque mp) (synrmJacobian mp s w).dx
      (synrmJacobian mp s w).dw (synrmJacobian mp s w).dT s w := by
  refine ⟨?_, ?_, ?_⟩
  · intro i j
    fin_cases i <;> fin_cases j <;> apply hasDerivAt_of_affine <;> intro x <;>
      simp [synrmOde_eq, synrmJacobian, Function.update] <;> ring
  · intro i
    fin_cases i <;> apply hasDerivAt_of_affine <;> intro x <;> simp [synrmOde_eq, synrmJacobian] <;> ring
  · intro j
    fin_cases j <;> apply hasDerivAt_of_affine <;> intro x <;> simp [synrmTorque, synrmJacobian, Function.update] <;> ring

/-- C27, EESM; the transformation ratio must not be zero. -/
theorem c27_eesm (mp : EesmParams ℝ) (hk : mp.k ≠ 0) (s : Fin 4 → ℝ) (u : Fin 3 → ℝ) (w : ℝ) :
    IsMotorJacobian (fun s w => eesmOde mp s u w) (eesmTorque mp) (eesmJacobian mp s w).dx
      (eesmJacobian mp s w).dw (eesmJacobian mp s w).dT s w := by
  have hik : mp.ik ≠ 0 := by unfold EesmParams.ik; exact div_ne_zero (by norm_num) hk
  have hik' : ∀ x : ℝ, x * mp.ik * mp.ik⁻¹ = x := fun x => by field_simp
  refine ⟨?_, ?_, ?_⟩
  · intro i j
    fin_cases i <;> fin_cases j <;> apply hasDerivAt_of_affine <;> intro x <;>
      simp [eesmOde_eq, eesmJacobian, Function.update] <;> generalize mp.ik = ik at * <;>
      generalize mp.sigma = sg at * <;> generalize mp.rE = rE at * <;> generalize mp.lM = lM at * <;>
      generalize mp.lE = lE at * <;>
      first
        | ring1
        | linear_combination (-rE * sg⁻¹ * lE⁻¹ * (x - s 2)) * (hik' 1)
  · intro i
    fin_cases i <;> apply hasDerivAt_of_affine <;> intro x <;> simp [eesmOde_eq, eesmJacobian] <;> ring
  · intro j
    fin_cases j <;> apply hasDerivAt_of_affine <;> intro x <;> simp [eesmTorque, eesmJacobian, Function.update] <;> ring

/-- C27, doubly fed induction motor. -/
theorem c27_dfim (mp : ImParams ℝ) (s : Fin 5 → ℝ) (u : Matrix (Fin 2) (Fin 2) ℝ) (w : ℝ) :
    IsMotorJacobian (fun s w => imOde mp s u w) (imTorque mp) (imJacobian mp s w).dx
      (imJacobian mp s w).dw (imJacobian mp s w).dT s w := by
  refine ⟨?_, ?_, ?_⟩
  · intro i j
    fin_cases i <;> fin_cases j <;> apply hasDerivAt_of_affine <;> intro x <;>
      simp [imOde_eq, imJacobian, Function.update] <;> ring
  · intro i
    fin_cases i <;> apply hasDerivAt_of_affine <;> intro x <;> simp [imOde_eq, imJacobian] <;> ring
  · intro j
    fin_cases j <;> apply hasDerivAt_of_affine <;> intro x <;>
      simp [imTorque, imJacobian, ImParams.lr, Function.update] <;> ring

/-- C27, squirrel cage induction motor. -/
theorem c27_scim (mp : ImParams ℝ) (s : Fin 5 → ℝ) (u : Fin 2 → ℝ) (w : ℝ) :
    IsMotorJacobian (fun s w => scimOde mp s u w) (imTorque mp) (imJacobian mp s w).dx
      (imJacobian mp s w).dw (imJacobian mp s w).dT s w := by
  have h := c27_dfim mp s !![u 0, u 1; 0, 0] w
  exact ⟨h.states, h.speed, h.torque⟩

/-- Non-triviality of C27: an EESM with positive parameters in a moving state has a Jacobian with non-zero entries. -/
example : (eesmJacobian (⟨1, 1, 2, 1, 4, 1, 1, 2⟩ : EesmParams ℝ) ![1, 2, 3, 0] 5).dT 0 = -3 ∧
    (eesmJacobian (⟨1, 1, 2, 1, 4, 1, 1, 2⟩ : EesmParams ℝ) ![1, 2, 3, 0] 5).dx 1 0 = -5 / 2 := by
  constructor <;> simp [eesmJacobian] <;> norm_num

/-- The Jacobian of the shunt motor is not constant: it depends on state and speed. -/
example : (shuntJacobian (⟨1, 1, 1, 2, 1⟩ : DcParams ℝ) ![1, 3] 5).dx 0 1 = -10 ∧
    (shuntJacobian (⟨1, 1, 1, 2, 1⟩ : DcParams ℝ) ![1, 3] 5).dT 0 = 6 := by
  constructor <;> simp [shuntJacobian] <;> norm_num

end jacobian

/-! ## C28: power balance -/

section energy

/-- C28, externally excited DC motor: each winding takes the power of its voltage and its input current. -/
theorem c28_extex (mp : DcParams ℝ) (hla : mp.la ≠ 0) (hle : mp.le ≠ 0) :
    PowerBalance (dcOde mp) (dcTorque mp) (fun x => 1 / 2 * mp.la * x 0 ^ 2 + 1 / 2 * mp.le * x 1 ^ 2)
      (fun x => mp.ra * x 0 ^ 2 + mp.re * x 1 ^ 2)
      (fun x u => (List.zipWith (· * ·) [u 0, u 1] (dcIIn x)).sum) := by
  intro x u w h t
  have h0 := h t 0
  have h1 := h t 1
  refine (((h0.fun_pow 2).const_mul (1 / 2 * mp.la)).fun_add ((h1.fun_pow 2).const_mul (1 / 2 * mp.le))).congr_deriv ?_
  simp [dcOde_eq, dcTorque, dcIIn]
  field_simp
  ring

/-- C28, shunt DC motor: the input current is the sum of both winding currents. -/
theorem c28_shunt (mp : DcParams ℝ) (hla : mp.la ≠ 0) (hle : mp.le ≠ 0) :
    PowerBalance (shuntOde mp) (dcTorque mp) (fun x => 1 / 2 * mp.la * x 0 ^ 2 + 1 / 2 * mp.le * x 1 ^ 2)
      (fun x => mp.ra * x 0 ^ 2 + mp.re * x 1 ^ 2) (fun x u => u 0 * (shuntIIn x).sum) := by
  intro x u w h t
  have h0 := h t 0
  have h1 := h t 1
  refine (((h0.fun_pow 2).const_mul (1 / 2 * mp.la)).fun_add ((h1.fun_pow 2).const_mul (1 / 2 * mp.le))).congr_deriv ?_
  simp [shuntOde, shuntIIn, dcOde_eq, dcTorque]
  field_simp
  ring

/-- C28, series DC motor. -/
theorem c28_series (mp : DcParams ℝ) (hl : mp.la + mp.le ≠ 0) :
    PowerBalance (seriesOde mp) (seriesTorque mp) (fun x => 1 / 2 * (mp.la + mp.le) * x 0 ^ 2)
      (fun x => (mp.ra + mp.re) * x 0 ^ 2) (fun x u => u 0 * x 0) := by
  intro x u w h t
  have h0 := h t 0
  refine ((h0.fun_pow 2).const_mul (1 / 2 * (mp.la + mp.le))).congr_deriv ?_
  simp [seriesOde_eq, seriesTorque, dcTorque]
  field_simp
  ring

/-- C28, permanently excited DC motor. -/
theorem c28_permex (mp : PermExParams ℝ) (hl : mp.la ≠ 0) :
    PowerBalance (permExOde mp) (permExTorque mp) (fun x => 1 / 2 * mp.la * x 0 ^ 2)
      (fun x => mp.ra * x 0 ^ 2) (fun x u => u 0 * x 0) := by
  intro x u w h t
  have h0 := h t 0
  refine ((h0.fun_pow 2).const_mul (1 / 2 * mp.la)).congr_deriv ?_
  simp [permExOde_eq, permExTorque]
  field_simp
  ring

/-- C28, PMSM (amplitude invariant dq quantities: factor 3/2). -/
theorem c28_pmsm (mp : SyncParams ℝ) (hd : mp.ld ≠ 0) (hq : mp.lq ≠ 0) :
    PowerBalance (syncOde (pmsmConstants mp)) (pmsmTorque mp)
      (fun x => 3 / 2 * (1 / 2 * mp.ld * x 0 ^ 2 + 1 / 2 * mp.lq * x 1 ^ 2))
      (fun x => 3 / 2 * (mp.rs * (x 0 ^ 2 + x 1 ^ 2))) (fun x u => 3 / 2 * (u 0 * x 0 + u 1 * x 1)) := by
  intro x u w h t
  have h0 := h t 0
  have h1 := h t 1
  refine ((((h0.fun_pow 2).const_mul (1 / 2 * mp.ld)).fun_add ((h1.fun_pow 2).const_mul (1 / 2 * mp.lq))).const_mul
    (3 / 2)).congr_deriv ?_
  simp [pmsmOde_eq, pmsmTorque]
  field_simp
  ring

/-- C28, SynRM. -/
theorem c28_synrm (mp : SyncParams ℝ) (hd : mp.ld ≠ 0) (hq : mp.lq ≠ 0) :
    PowerBalance (syncOde (synrmConstants mp)) (synrmTorque mp)
      (fun x => 3 / 2 * (1 / 2 * mp.ld * x 0 ^ 2 + 1 / 2 * mp.lq * x 1 ^ 2))
      (fun x => 3 / 2 * (mp.rs * (x 0 ^ 2 + x 1 ^ 2))) (fun x u => 3 / 2 * (u 0 * x 0 + u 1 * x 1)) := by
  intro x u w h t
  have h0 := h t 0
  have h1 := h t 1
  refine ((((h0.fun_pow 2).const_mul (1 / 2 * mp.ld)).fun_add ((h1.fun_pow 2).const_mul (1 / 2 * mp.lq))).const_mul
    (3 / 2)).congr_deriv ?_
  simp [synrmOde_eq, synrmTorque]
  field_simp
  ring

/-- Field energy of the EESM in terms of the physical rotor quantities: stator inductances with factor 3/2, rotor
winding `l_e`, mutual inductance `l_m`. -/
noncomputable def eesmEnergy (mp : EesmParams ℝ) (x : Fin 4 → ℝ) : ℝ :=
  3 / 2 * (1 / 2 * mp.ld * x 0 ^ 2 + 1 / 2 * mp.lq * x 1 ^ 2 + mp.lm * x 0 * x 2) + 1 / 2 * mp.le * x 2 ^ 2

/-- C28, EESM: losses and input power of the excitation winding are those of the physical winding,
`r_e * i_e²` and `u_e * i_e`. -/
theorem c28_eesm (mp : EesmParams ℝ) (hd : mp.ld ≠ 0) (hq : mp.lq ≠ 0) (hk : mp.k ≠ 0) (he : mp.le ≠ 0)
    (hs : mp.sigma ≠ 0) :
    PowerBalance (eesmOde mp) (eesmTorque mp) (eesmEnergy mp)
      (fun x => 3 / 2 * (mp.rs * (x 0 ^ 2 + x 1 ^ 2)) + mp.re * x 2 ^ 2)
      (fun x u => 3 / 2 * (u 0 * x 0 + u 1 * x 1) + u 2 * x 2) := by
  intro x u w h t
  have h0 := h t 0
  have h1 := h t 1
  have h2 := h t 2
  unfold eesmEnergy
  refine ((((((h0.fun_pow 2).const_mul (1 / 2 * mp.ld)).fun_add ((h1.fun_pow 2).const_mul (1 / 2 * mp.lq))).fun_add
    ((h0.const_mul mp.lm).fun_mul h2)).const_mul (3 / 2)).fun_add ((h2.fun_pow 2).const_mul (1 / 2 * mp.le))).congr_deriv ?_
  have hs' : mp.sigma = 1 - 3 / 2 * mp.lm ^ 2 / (mp.ld * mp.le) := by
    unfold EesmParams.sigma EesmParams.lM EesmParams.lE; field_simp
  have hs2 : mp.ld * mp.le * mp.sigma = mp.ld * mp.le - 3 / 2 * mp.lm ^ 2 := by rw [hs']; field_simp
  simp [eesmOde_eq, eesmTorque]
  simp only [EesmParams.lM, EesmParams.rE, EesmParams.lE, EesmParams.ik]
  generalize mp.sigma = sg at *
  have h2s : 2 * mp.ld * mp.le - 3 * mp.lm ^ 2 = 2 * (mp.ld * mp.le * sg) := by rw [hs2]; ring
  field_simp
  linear_combination (3 * x t 0 * u t 0 + 3 * x t 0 * mp.lq * mp.p * w t * x t 1 - 3 * x t 0 ^ 2 * mp.rs
    - 2 * mp.re * x t 2 ^ 2 + 2 * x t 2 * u t 2) * h2s

/-- Stator flux linkage, rotor current of an induction machine in terms of stator current and rotor flux. -/
noncomputable def imStatorFlux (mp : ImParams ℝ) (i psi : ℝ) : ℝ := mp.sigma * mp.ls * i + mp.lm / mp.lr * psi
/-- Rotor current. -/
noncomputable def imRotorCurrent (mp : ImParams ℝ) (i psi : ℝ) : ℝ := (psi - mp.lm * i) / mp.lr

/-- C28, doubly fed induction motor: field energy `3/4 (psi_s·i_s + psi_r·i_r)`, losses and input power of both
windings. -/
theorem c28_dfim (mp : ImParams ℝ) (hls : mp.ls ≠ 0) (hlr : mp.lr ≠ 0) (hs : mp.sigma ≠ 0) :
    PowerBalance (imOde mp) (imTorque mp)
      (fun x => 3 / 2 * (1 / 2 * (imStatorFlux mp (x 0) (x 2) * x 0 + imStatorFlux mp (x 1) (x 3) * x 1
        + x 2 * imRotorCurrent mp (x 0) (x 2) + x 3 * imRotorCurrent mp (x 1) (x 3))))
      (fun x => 3 / 2 * (mp.rs * (x 0 ^ 2 + x 1 ^ 2) + mp.rr * (imRotorCurrent mp (x 0) (x 2) ^ 2 +
        imRotorCurrent mp (x 1) (x 3) ^ 2)))
      (fun x u => 3 / 2 * (u 0 0 * x 0 + u 0 1 * x 1 + u 1 0 * imRotorCurrent mp (x 0) (x 2) +
        u 1 1 * imRotorCurrent mp (x 1) (x 3))) := by
  intro x u w h t
  have h0 := h t 0
  have h1 := h t 1
  have h2 := h t 2
  have h3 := h t 3
  have e : (fun t => 3 / 2 * (1 / 2 * (imStatorFlux mp (x t 0) (x t 2) * x t 0 + imStatorFlux mp (x t 1) (x t 3) * x t 1
        + x t 2 * imRotorCurrent mp (x t 0) (x t 2) + x t 3 * imRotorCurrent mp (x t 1) (x t 3)))) =
      fun t => 3 / 4 * (mp.sigma * mp.ls * (x t 0 ^ 2 + x t 1 ^ 2) + 1 / mp.lr * (x t 2 ^ 2 + x t 3 ^ 2)) := by
    funext t; unfold imStatorFlux imRotorCurrent; field_simp; ring
  simp only []
  rw [e]
  refine (((((h0.fun_pow 2).fun_add (h1.fun_pow 2)).const_mul (mp.sigma * mp.ls)).fun_add
    (((h2.fun_pow 2).fun_add (h3.fun_pow 2)).const_mul (1 / mp.lr))).const_mul (3 / 4)).congr_deriv ?_
  have hlr' : mp.lm + mp.lsigr = mp.lr := rfl
  simp only [imOde_eq, imTorque, imRotorCurrent, ImParams.tauSig, ImParams.tauR, hlr']
  simp
  generalize mp.sigma = sg at *
  generalize mp.ls = ls at *
  generalize mp.lr = lr at *
  field_simp
  ring

/-- C28, squirrel cage induction motor: no rotor input. -/
theorem c28_scim (mp : ImParams ℝ) (hls : mp.ls ≠ 0) (hlr : mp.lr ≠ 0) (hs : mp.sigma ≠ 0) :
    PowerBalance (scimOde mp) (imTorque mp)
      (fun x => 3 / 2 * (1 / 2 * (imStatorFlux mp (x 0) (x 2) * x 0 + imStatorFlux mp (x 1) (x 3) * x 1
        + x 2 * imRotorCurrent mp (x 0) (x 2) + x 3 * imRotorCurrent mp (x 1) (x 3))))
      (fun x => 3 / 2 * (mp.rs * (x 0 ^ 2 + x 1 ^ 2) + mp.rr * (imRotorCurrent mp (x 0) (x 2) ^ 2 +
        imRotorCurrent mp (x 1) (x 3) ^ 2)))
      (fun x u => 3 / 2 * (u 0 * x 0 + u 1 * x 1)) := by
  intro x u w h t
  have := c28_dfim mp hls hlr hs x (fun t => !![u t 0, u t 1; 0, 0]) w h t
  refine this.congr_deriv ?_
  simp

/-- A decaying current is a solution of the permanently excited motor at standstill: C28 is about existing
trajectories, and here the field energy turns into copper losses. -/
example : IsSolution (permExOde (⟨1, 1, 1⟩ : PermExParams ℝ)) (fun t _ => Real.exp (-t)) (fun _ => ![0]) (fun _ => 0) := by
  intro t i
  fin_cases i
  refine ((Real.hasDerivAt_exp (-t)).comp t (hasDerivAt_neg t)).congr_deriv ?_
  simp [permExOde_eq]

/-- Constant trajectories at an operating point with `ode = 0` are solutions. -/
theorem isSolution_const {n : ℕ} {U : Type*} (ode : (Fin n → ℝ) → U → ℝ → Fin n → ℝ) (x : Fin n → ℝ) (u : U) (w : ℝ)
    (h : ∀ i, ode x u w i = 0) : IsSolution ode (fun _ => x) (fun _ => u) (fun _ => w) :=
  fun t i => (hasDerivAt_const t (x i)).congr_deriv (h i).symm

/-- Operating point of the externally excited motor with mechanical power 6 out of input power 11. -/
example : IsSolution (dcOde (⟨1, 2, 1, 1, 1⟩ : DcParams ℝ)) (fun _ => ![3, 1]) (fun _ => ![5, 2]) (fun _ => 2) :=
  isSolution_const _ _ _ _ (by intro i; fin_cases i <;> simp [dcOde_eq] <;> norm_num)

/-- Operating point of the series motor. -/
example : IsSolution (seriesOde (⟨1, 1, 1, 1, 1⟩ : DcParams ℝ)) (fun _ => ![2]) (fun _ => ![10]) (fun _ => 3) :=
  isSolution_const _ _ _ _ (by intro i; fin_cases i; simp [seriesOde_eq]; norm_num)

/-- Locked rotor operating point of the PMSM under voltage. -/
example : IsSolution (syncOde (pmsmConstants (⟨2, 1, 2, 3, 1⟩ : SyncParams ℝ))) (fun _ => ![1, 2, 0]) (fun _ => ![3, 6])
    (fun _ => 0) :=
  isSolution_const _ _ _ _ (by intro i; fin_cases i <;> simp [pmsmOde_eq] <;> norm_num)

/-- Locked rotor operating point of the EESM. -/
example : IsSolution (eesmOde (⟨2, 1, 2, 1, 4, 3, 2, 1⟩ : EesmParams ℝ)) (fun _ => ![1, 2, 3, 0]) (fun _ => ![3, 6, 6])
    (fun _ => 0) :=
  isSolution_const _ _ _ _ (by
    intro i; fin_cases i <;> simp [eesmOde_eq, EesmParams.rE, EesmParams.lM, EesmParams.lE, EesmParams.ik] <;> ring_nf)

/-- Parameters of an EESM and an induction motor meeting the hypotheses of C28. -/
example : (⟨2, 1, 2, 1, 4, 3, 2, 1⟩ : EesmParams ℝ).sigma ≠ 0 ∧ (⟨2, 1, 1, 1, 1, 1⟩ : ImParams ℝ).sigma ≠ 0 := by
  constructor
  · norm_num [EesmParams.sigma, EesmParams.lM, EesmParams.lE]
  · norm_num [ImParams.sigma, ImParams.ls, ImParams.lr]

/-- Locked rotor operating point of the DFIM with stator and rotor voltages. -/
example : IsSolution (imOde (⟨2, 1, 1, 1, 1, 1⟩ : ImParams ℝ)) (fun _ => ![1, 2, 3, 1, 0])
    (fun _ => !![1, 2; 1, -1 / 2]) (fun _ => 0) :=
  isSolution_const _ _ _ _ (by
    intro i
    fin_cases i <;>
      simp [imOde_eq, ImParams.tauR, ImParams.tauSig, ImParams.sigma, ImParams.ls, ImParams.lr] <;> norm_num)

end energy

/-! ## C29: torque limits -/

section limits

/-- C29, DC motors with two windings (`DcMotor._update_limits` evaluates `torque` at the current limits). -/
theorem c29_dc (mp : DcParams ℝ) (hl : 0 ≤ mp.lePrime) (s lim : Fin 2 → ℝ) (h : ∀ i, |s i| ≤ lim i) :
    |dcTorque mp s| ≤ dcTorque mp lim := by
  unfold dcTorque
  rw [abs_mul, abs_mul, abs_of_nonneg hl, mul_assoc, mul_assoc]
  exact mul_le_mul_of_nonneg_left (mul_le_mul (h 0) (h 1) (abs_nonneg _) ((abs_nonneg _).trans (h 0))) hl

/-- C29, series motor. -/
theorem c29_series (mp : DcParams ℝ) (hl : 0 ≤ mp.lePrime) (s lim : Fin 1 → ℝ) (h : ∀ i, |s i| ≤ lim i) :
    |seriesTorque mp s| ≤ seriesTorque mp lim := by
  unfold seriesTorque
  apply c29_dc mp hl
  intro i; fin_cases i <;> simpa using h 0

/-- C29, permanently excited motor. -/
theorem c29_permex (mp : PermExParams ℝ) (hl : 0 ≤ mp.psiE) (s lim : Fin 1 → ℝ) (h : ∀ i, |s i| ≤ lim i) :
    |permExTorque mp s| ≤ permExTorque mp lim := by
  unfold permExTorque
  rw [abs_mul, abs_of_nonneg hl]
  exact mul_le_mul_of_nonneg_left (h 0) hl

/-- C29, PMSM with `l_d < l_q`: no stator current of at most *nominal* length makes more torque than the limit.
(Missing: currents between nominal and limit, and motors with `l_d > l_q`; both are violated below.) -/
theorem c29_pmsm_partial (mp : SyncParams ℝ) (iN iSq : ℝ) (hp : 0 ≤ mp.p) (hd : mp.ld < mp.lq) (hpsi : 0 ≤ mp.psiP)
    (s : Fin 3 → ℝ) (hs : s 0 ^ 2 + s 1 ^ 2 ≤ iN ^ 2) : |pmsmTorque mp s| ≤ pmsmTorqueLimit mp iN iSq := by
  obtain ⟨m, b, hm, hb, hI, hpm, hlim⟩ := pmsmTorqueLimit_eq mp iN iSq hd hpsi
  rw [hlim]
  have e : pmsmTorque mp s = 3 / 2 * mp.p * (mp.lq - mp.ld) * ((m - s 0) * s 1) := by unfold pmsmTorque; rw [hpm]; ring
  have hD : 0 ≤ mp.lq - mp.ld := by linarith
  rw [e, abs_mul, abs_of_nonneg (by positivity : 0 ≤ 3 / 2 * mp.p * (mp.lq - mp.ld))]
  have := mul_le_mul_of_nonneg_left (mtpc_certificate hm hb (hI ▸ hs)) (by positivity : 0 ≤ 3 / 2 * mp.p * (mp.lq - mp.ld))
  refine this.trans (le_of_eq ?_)
  ring

/-- The bound is attained: the limit is the least one for nominal currents. -/
theorem c29_pmsm_attained (mp : SyncParams ℝ) (iN iSq : ℝ) (hd : mp.ld < mp.lq) (hpsi : 0 ≤ mp.psiP) :
    ∃ s : Fin 3 → ℝ, s 0 ^ 2 + s 1 ^ 2 ≤ iN ^ 2 ∧ pmsmTorque mp s = pmsmTorqueLimit mp iN iSq := by
  obtain ⟨m, b, hm, hb, hI, hpm, hlim⟩ := pmsmTorqueLimit_eq mp iN iSq hd hpsi
  refine ⟨![-b, √(b * (m + b)), 0], ?_, ?_⟩
  · simp only [Matrix.cons_val_zero, Matrix.cons_val_one]
    rw [Real.sq_sqrt (by positivity), hI]; nlinarith
  · rw [hlim]; simp only [pmsmTorque, Matrix.cons_val_zero, Matrix.cons_val_one]; rw [hpm]; ring

/-- C29, PMSM without saliency: every q current inside its limit is covered. -/
theorem c29_pmsm_round (mp : SyncParams ℝ) (iN iSq : ℝ) (hp : 0 ≤ mp.p) (hd : mp.ld = mp.lq) (hpsi : 0 ≤ mp.psiP)
    (s : Fin 3 → ℝ) (hs : |s 1| ≤ iSq) : |pmsmTorque mp s| ≤ pmsmTorqueLimit mp iN iSq := by
  have e : pmsmTorqueLimit mp iN iSq = 3 / 2 * mp.p * mp.psiP * iSq := by
    unfold pmsmTorqueLimit; rw [if_pos hd]; simp [pmsmTorque]
  have e2 : pmsmTorque mp s = 3 / 2 * mp.p * mp.psiP * s 1 := by unfold pmsmTorque; rw [hd]; ring
  rw [e, e2, abs_mul, abs_of_nonneg (by positivity : 0 ≤ 3 / 2 * mp.p * mp.psiP)]
  exact mul_le_mul_of_nonneg_left hs (by positivity)

/-- C29 violated, PMSM: the limit is computed from the *nominal* current.  Whenever the current limit is larger, there is
a current inside the limit whose torque exceeds the torque limit. -/
theorem c29_pmsm_nominal_violated (mp : SyncParams ℝ) (iN iLim iSq : ℝ) (hp : 0 < mp.p) (hd : mp.ld < mp.lq)
    (hpsi : 0 ≤ mp.psiP) (hN : 0 < iN) (hL : iN < iLim) :
    ∃ s : Fin 3 → ℝ, s 0 ^ 2 + s 1 ^ 2 ≤ iLim ^ 2 ∧ pmsmTorqueLimit mp iN iSq < pmsmTorque mp s := by
  obtain ⟨m, b, hm, hb, hI, hpm, hlim⟩ := pmsmTorqueLimit_eq mp iN iSq hd hpsi
  have hb' : 0 < b := by
    rcases hb.eq_or_lt with h | h
    · exfalso; subst h; have := pow_pos hN 2; simp at hI; exact hN.ne' hI
    · exact h
  have hD : 0 < mp.lq - mp.ld := by linarith
  set c := iLim / iN with hc
  have hc1 : 1 < c := by rw [hc, lt_div_iff₀ hN]; linarith
  have hcI : c ^ 2 * iN ^ 2 = iLim ^ 2 := by rw [hc]; field_simp
  have hsq : 0 < √(b * (m + b)) := Real.sqrt_pos.mpr (by positivity)
  refine ⟨![-(c * b), c * √(b * (m + b)), 0], ?_, ?_⟩
  · simp only [Matrix.cons_val_zero, Matrix.cons_val_one]
    rw [mul_pow, Real.sq_sqrt (by positivity), ← hcI, hI]; nlinarith
  · rw [hlim]; simp only [pmsmTorque, Matrix.cons_val_zero, Matrix.cons_val_one]; rw [hpm]
    have hk : 0 < 3 / 2 * mp.p * (mp.lq - mp.ld) * √(b * (m + b)) := by positivity
    have h1 : m ≤ m * c := le_mul_of_one_le_right hm hc1.le
    have h2 : b < b * c ^ 2 := by nlinarith
    have : m + b < (m + c * b) * c := by nlinarith
    have := mul_lt_mul_of_pos_left this hk
    nlinarith

/-- C29 violated, PMSM with `l_d > l_q`: the branch of the quadratic formula for `l_d < l_q` is used for every motor.
Here the computed limit is 0 although every q current makes torque. -/
theorem c29_pmsm_ld_gt_lq_violated :
    ∃ (mp : SyncParams ℝ) (iN iSq : ℝ) (s : Fin 3 → ℝ), 0 < mp.p ∧ 0 < mp.psiP ∧ mp.lq < mp.ld ∧ 0 < mp.lq ∧
      s 0 ^ 2 + s 1 ^ 2 ≤ iN ^ 2 ∧ pmsmTorqueLimit mp iN iSq = 0 ∧ pmsmTorque mp s = 3 / 2 := by
  refine ⟨⟨1, 2, 1, 1, 1⟩, 1, 1, ![0, 1, 0], by norm_num, by norm_num, by norm_num, by norm_num, by norm_num, ?_, ?_⟩
  · have h : √(((1 : ℝ) / (2 * (2 - 1)) / 2) ^ 2 - -(1 ^ 2) / 2) = 3 / 4 := by
      rw [show ((1 : ℝ) / (2 * (2 - 1)) / 2) ^ 2 - -(1 ^ 2) / 2 = (3 / 4) ^ 2 by norm_num]
      exact Real.sqrt_sq (by norm_num)
    simp only [pmsmTorqueLimit]
    rw [if_neg (by norm_num), h]
    norm_num [pmsmTorque]
  · norm_num [pmsmTorque]

/-- C29, SynRM with `l_d ≥ l_q`: covered for currents inside the ellipse of both current limits. -/
theorem c29_synrm_partial (mp : SyncParams ℝ) (iSd iSq : ℝ) (hp : 0 ≤ mp.p) (hd : mp.lq ≤ mp.ld) (hSd : 0 < iSd)
    (hSq : 0 < iSq) (s : Fin 3 → ℝ) (hs : (s 0 / iSd) ^ 2 + (s 1 / iSq) ^ 2 ≤ 1) :
    |synrmTorque mp s| ≤ synrmTorqueLimit mp iSd iSq := by
  have e : synrmTorqueLimit mp iSd iSq = 3 / 2 * mp.p * (mp.ld - mp.lq) * (iSd * iSq / 2) := by
    unfold synrmTorqueLimit synrmTorque
    simp only [Matrix.cons_val_zero, Matrix.cons_val_one]
    have h2 : √2 * √2 = (2 : ℝ) := Real.mul_self_sqrt (by norm_num)
    have h0 : √2 ≠ (0 : ℝ) := by positivity
    field_simp
    linear_combination (-(mp.p * (mp.ld - mp.lq))) * h2
  have hD : 0 ≤ mp.ld - mp.lq := by linarith
  have e2 : synrmTorque mp s = 3 / 2 * mp.p * (mp.ld - mp.lq) * (s 0 * s 1) := by unfold synrmTorque; ring
  rw [e, e2, abs_mul, abs_of_nonneg (by positivity : 0 ≤ 3 / 2 * mp.p * (mp.ld - mp.lq))]
  apply mul_le_mul_of_nonneg_left _ (by positivity)
  have e3 : s 0 * s 1 = iSd * iSq * ((s 0 / iSd) * (s 1 / iSq)) := by field_simp
  rw [e3, abs_mul, abs_of_pos (by positivity)]
  have : |s 0 / iSd * (s 1 / iSq)| ≤ 1 / 2 := by
    rw [abs_le]; constructor <;> nlinarith [sq_nonneg (s 0 / iSd + s 1 / iSq), sq_nonneg (s 0 / iSd - s 1 / iSq)]
  calc _ ≤ iSd * iSq * (1 / 2) := mul_le_mul_of_nonneg_left this (by positivity)
    _ = _ := by ring

/-- C29 violated, SynRM: for `l_d < l_q` (and positive limits) the torque limit itself is negative, so no torque is
inside it. -/
theorem c29_synrm_violated (mp : SyncParams ℝ) (iSd iSq : ℝ) (hp : 0 < mp.p) (hd : mp.ld < mp.lq) (hSd : 0 < iSd)
    (hSq : 0 < iSq) : synrmTorqueLimit mp iSd iSq < 0 ∧ ∀ s, ¬ |synrmTorque mp s| ≤ synrmTorqueLimit mp iSd iSq := by
  have h : synrmTorqueLimit mp iSd iSq < 0 := by
    unfold synrmTorqueLimit synrmTorque
    simp only [Matrix.cons_val_zero, Matrix.cons_val_one]
    have h1 : 0 < 3 / 2 * mp.p * (mp.lq - mp.ld) * (iSd / √2) * (iSq / √2) := by
      have : 0 < mp.lq - mp.ld := by linarith
      positivity
    linarith
  exact ⟨h, fun s hs => absurd ((abs_nonneg _).trans hs) (not_le.mpr h)⟩

/-- C29, EESM without saliency. -/
theorem c29_eesm_partial (mp : EesmParams ℝ) (iN iSq iE : ℝ) (hp : 0 ≤ mp.p) (hd : mp.ld = mp.lq) (hlm : 0 ≤ mp.lm)
    (hk : 0 < mp.k) (s : Fin 4 → ℝ) (hq : |s 1| ≤ iSq) (he : |s 2| ≤ iE) :
    |eesmTorque mp s| ≤ eesmTorqueLimit mp iN iSq iE := by
  have hM : mp.lM * mp.ik = mp.lm := by unfold EesmParams.lM EesmParams.ik; field_simp
  have e : eesmTorqueLimit mp iN iSq iE = 3 / 2 * mp.p * mp.lm * (iE * iSq) := by
    unfold eesmTorqueLimit; rw [if_pos hd]; simp [eesmTorque, ← hM]; ring
  have e2 : eesmTorque mp s = 3 / 2 * mp.p * mp.lm * (s 2 * s 1) := by unfold eesmTorque; rw [hd, ← hM]; ring
  rw [e, e2, abs_mul, abs_of_nonneg (by positivity : 0 ≤ 3 / 2 * mp.p * mp.lm), abs_mul]
  exact mul_le_mul_of_nonneg_left (mul_le_mul he hq (abs_nonneg _) ((abs_nonneg _).trans he)) (by positivity)

/-- C29 violated, EESM with saliency: the code takes `l_M * i_nominal` as excitation flux when it looks for the best d
current and evaluates the torque with the excitation limit.  A stator current of nominal length at the excitation limit
makes more torque than the computed limit `3/2 * 2√3`. -/
theorem c29_eesm_violated :
    ∃ (mp : EesmParams ℝ) (iN iSq iE : ℝ) (s : Fin 4 → ℝ), 0 < mp.p ∧ 0 < mp.ld ∧ mp.ld < mp.lq ∧ 0 < mp.lm ∧ 0 < mp.k ∧
      0 < mp.sigma ∧ s 0 ^ 2 + s 1 ^ 2 ≤ iN ^ 2 ∧ |s 1| ≤ iSq ∧ |s 2| ≤ iE ∧
      eesmTorqueLimit mp iN iSq iE < eesmTorque mp s := by
  refine ⟨⟨1, 1, 2, 1, 4, 1, 1, 2 / 3⟩, 2, 2, 1, ![-6 / 5, 8 / 5, 1, 0], by norm_num, by norm_num, by norm_num, by norm_num,
    by norm_num, by norm_num [EesmParams.sigma, EesmParams.lM, EesmParams.lE], ?_, ?_, ?_, ?_⟩
  · simp only [Matrix.cons_val_zero, Matrix.cons_val_one]; norm_num
  · simp only [Matrix.cons_val_one]; norm_num [abs_le]
  · simp; 
  · have h : √(((2 / 3 : ℝ) * 3 / 2 * 1 * 2 / (2 * (1 - 2)) / 2) ^ 2 - -2 ^ 2 / 2) = 3 / 2 := by
      rw [show ((2 / 3 : ℝ) * 3 / 2 * 1 * 2 / (2 * (1 - 2)) / 2) ^ 2 - -2 ^ 2 / 2 = (3 / 2) ^ 2 by norm_num]
      exact Real.sqrt_sq (by norm_num)
    have h3 : √(2 ^ 2 - (-((2 / 3 : ℝ) * 3 / 2 * 1 * 2 / (2 * (1 - 2))) / 2 - 3 / 2) ^ 2) < 1.74 := by
      rw [Real.sqrt_lt' (by norm_num)]; norm_num
    simp only [eesmTorqueLimit]
    rw [if_neg (by norm_num), if_pos (by norm_num)]
    simp only [EesmParams.lM, h]
    generalize √(2 ^ 2 - (-((2 / 3 : ℝ) * 3 / 2 * 1 * 2 / (2 * (1 - 2))) / 2 - 3 / 2) ^ 2) = z at *
    simp [eesmTorque, EesmParams.lM, EesmParams.ik]
    norm_num at h3 ⊢
    linarith

/-- C29, induction motors: the limit covers every state whose rotor flux is the steady state flux `l_m * i_sd` of an
admissible d current (flux oriented coordinates).  The torque is written in the rotor flux frame. -/
theorem c29_im_steady_partial (mp : ImParams ℝ) (I : ℝ) (hp : 0 ≤ mp.p) (hlr : 0 < mp.lm + mp.lsigr)
    (s : Fin 5 → ℝ) (theta iD iQ : ℝ) (hi : iD ^ 2 + iQ ^ 2 ≤ I ^ 2)
    (hcur : q ![iD, iQ] theta = ![s 0, s 1]) (hflux : q ![mp.lm * iD, 0] theta = ![s 2, s 3]) :
    |imTorque mp s| ≤ imTorqueLimit mp I I := by
  have h0 : s 0 = Real.cos theta * iD - Real.sin theta * iQ := by
    have := congrFun hcur 0; simp [q] at this; exact this.symm
  have h1 : s 1 = Real.sin theta * iD + Real.cos theta * iQ := by
    have := congrFun hcur 1; simp [q] at this; exact this.symm
  have h2 : s 2 = Real.cos theta * (mp.lm * iD) := by
    have := congrFun hflux 0; simp [q] at this; exact this.symm
  have h3 : s 3 = Real.sin theta * (mp.lm * iD) := by
    have := congrFun hflux 1; simp [q] at this; exact this.symm
  have e : imTorque mp s = 3 / 2 * mp.p * mp.lm ^ 2 / (mp.lm + mp.lsigr) * (iD * iQ) := by
    unfold imTorque; rw [h0, h1, h2, h3]
    have := Real.sin_sq_add_cos_sq theta
    field_simp
    linear_combination (mp.p * mp.lm ^ 2 * iD * iQ) * this
  have hk : 0 ≤ 3 / 2 * mp.p * mp.lm ^ 2 / (mp.lm + mp.lsigr) := by positivity
  rw [e, abs_mul, abs_of_nonneg hk]
  unfold imTorqueLimit
  have : |iD * iQ| ≤ I * I / 2 := by
    rw [abs_le]; constructor <;> nlinarith [sq_nonneg (iD + iQ), sq_nonneg (iD - iQ)]
  calc _ ≤ 3 / 2 * mp.p * mp.lm ^ 2 / (mp.lm + mp.lsigr) * (I * I / 2) := mul_le_mul_of_nonneg_left this hk
    _ = _ := by ring

/-- C29, induction motors, every state: with current of length at most `I` and rotor flux of length at most `l_m * I`
the torque is at most twice the limit. -/
theorem c29_im_transient_partial (mp : ImParams ℝ) (I : ℝ) (hI : 0 ≤ I) (hp : 0 ≤ mp.p) (hlm : 0 ≤ mp.lm)
    (hlr : 0 < mp.lm + mp.lsigr) (s : Fin 5 → ℝ) (hi : s 0 ^ 2 + s 1 ^ 2 ≤ I ^ 2)
    (hf : s 2 ^ 2 + s 3 ^ 2 ≤ (mp.lm * I) ^ 2) : |imTorque mp s| ≤ 2 * imTorqueLimit mp I I := by
  have hk : 0 ≤ 3 / 2 * mp.p * mp.lm / (mp.lm + mp.lsigr) := by positivity
  unfold imTorque imTorqueLimit
  rw [abs_mul, abs_of_nonneg hk]
  have : |s 2 * s 1 - s 3 * s 0| ≤ mp.lm * I * I := by
    apply abs_le_of_sq_le_sq _ (by positivity)
    have h1 : (s 2 * s 1 - s 3 * s 0) ^ 2 ≤ (s 2 ^ 2 + s 3 ^ 2) * (s 0 ^ 2 + s 1 ^ 2) := by
      nlinarith [sq_nonneg (s 2 * s 0 + s 3 * s 1)]
    have h2 := mul_le_mul hf hi (by positivity) (by positivity)
    nlinarith
  calc _ ≤ 3 / 2 * mp.p * mp.lm / (mp.lm + mp.lsigr) * (mp.lm * I * I) := mul_le_mul_of_nonneg_left this hk
    _ = _ := by field_simp

/-- C29 violated, induction motors: flux built up with full current, then the current turned perpendicular to it.  Both
lengths are inside their limits and the torque is twice the torque limit. -/
theorem c29_im_violated (mp : ImParams ℝ) (I : ℝ) (hI : 0 < I) (hp : 0 < mp.p) (hlm : 0 < mp.lm)
    (hlr : 0 < mp.lm + mp.lsigr) :
    ∃ s : Fin 5 → ℝ, s 0 ^ 2 + s 1 ^ 2 ≤ I ^ 2 ∧ s 2 ^ 2 + s 3 ^ 2 ≤ (mp.lm * I) ^ 2 ∧
      imTorqueLimit mp I I < imTorque mp s ∧ imTorque mp s = 2 * imTorqueLimit mp I I := by
  have e : imTorque mp ![0, I, mp.lm * I, 0, 0] = 2 * imTorqueLimit mp I I := by
    simp [imTorque, imTorqueLimit]; field_simp
  have hpos : 0 < imTorqueLimit mp I I := by unfold imTorqueLimit; positivity
  exact ⟨![0, I, mp.lm * I, 0, 0], by simp, by simp, by rw [e]; linarith, e⟩

/-- The PMSM limit for `l_q - l_d = 1`, `psi_p = 1`, nominal current 1 is positive and less than the torque bound
`3/2 * 2`: C29 is not about an empty or trivial range. -/
example : pmsmTorqueLimit ⟨1, 1, 2, 1, 1⟩ 1 1 = 3 / 2 * (3 / 2) * √(3 / 4) := by
  have h : √(((1 : ℝ) / (2 * (1 - 2)) / 2) ^ 2 - -(1 ^ 2) / 2) = 3 / 4 := by
    rw [show ((1 : ℝ) / (2 * (1 - 2)) / 2) ^ 2 - -(1 ^ 2) / 2 = (3 / 4) ^ 2 by norm_num]
    exact Real.sqrt_sq (by norm_num)
  simp only [pmsmTorqueLimit]
  rw [if_neg (by norm_num), h]
  simp only [pmsmTorque, Matrix.cons_val_zero, Matrix.cons_val_one]
  norm_num

/-- A state meeting the hypotheses of `c29_im_steady_partial` with non-zero torque. -/
example : q ![3, 4] 0 = ![(![3, 4, 6, 0, 0] : Fin 5 → ℝ) 0, (![3, 4, 6, 0, 0] : Fin 5 → ℝ) 1] ∧
    q ![2 * 3, 0] 0 = ![(![3, 4, 6, 0, 0] : Fin 5 → ℝ) 2, (![3, 4, 6, 0, 0] : Fin 5 → ℝ) 3] ∧
    (3 : ℝ) ^ 2 + 4 ^ 2 ≤ 5 ^ 2 ∧ imTorque (⟨1, 2, 1, 1, 1, 1⟩ : ImParams ℝ) ![3, 4, 6, 0, 0] = 24 := by
  refine ⟨?_, ?_, by norm_num, ?_⟩
  · simp [q]
  · simp [q]; norm_num
  · simp [imTorque]; norm_num

/-- A SynRM state inside the ellipse with non-zero torque. -/
example : ((1 : ℝ) / 2) ^ 2 + (1 / 2) ^ 2 ≤ 1 ∧ synrmTorque (⟨1, 2, 1, 1, 0⟩ : SyncParams ℝ) ![1, 1, 0] = 3 / 2 := by
  constructor <;> norm_num [synrmTorque]

end limits

/-! ## C32: coordinate transforms -/

section transforms

/-- C32: abc → alpha/beta undoes alpha/beta → abc. -/
theorem c32_t23_t32 (v : Fin 2 → ℝ) : t23 (t32 v) = v := by
  have h3 : √3 * √3 = (3 : ℝ) := Real.mul_self_sqrt (by norm_num)
  funext i
  fin_cases i <;> simp [t23, t32, Matrix.mulVec, dotProduct, Fin.sum_univ_succ]
  · ring
  · linear_combination (1 / 3 * v 1) * h3

/-- C32: alpha/beta → abc undoes abc → alpha/beta exactly on the zero-sum quantities. -/
theorem c32_t32_t23 (v : Fin 3 → ℝ) : t32 (t23 v) = v ↔ v 0 + v 1 + v 2 = 0 := by
  have h3 : √3 * √3 = (3 : ℝ) := Real.mul_self_sqrt (by norm_num)
  have e : t32 (t23 v) = fun i => v i - (v 0 + v 1 + v 2) / 3 := by
    funext i
    fin_cases i <;> simp [t23, t32, Matrix.mulVec, dotProduct, Fin.sum_univ_succ]
    · ring
    · linear_combination (1 / 6 * (v 1 - v 2)) * h3
    · linear_combination (1 / 6 * (v 2 - v 1)) * h3
  rw [e]
  constructor
  · intro h; have := congrFun h 0; simp at this; exact this
  · intro h; funext i; rw [h]; simp

/-- C32: phase quantities obtained from alpha/beta sum to zero. -/
theorem c32_t32_zero_sum (v : Fin 2 → ℝ) : t32 v 0 + t32 v 1 + t32 v 2 = 0 := by
  simp [t32, Matrix.mulVec, dotProduct, Fin.sum_univ_succ]; ring

/-- C32: rotations compose additively. -/
theorem c32_q_add (v : Fin 2 → ℝ) (a b : ℝ) : q (q v a) b = q v (a + b) := by
  funext i
  fin_cases i <;> simp [q, Real.cos_add, Real.sin_add] <;> ring

/-- C32: `q_inv` and `q` undo each other, in either order. -/
theorem c32_q_inv (v : Fin 2 → ℝ) (eps : ℝ) : qInv (q v eps) eps = v ∧ q (qInv v eps) eps = v := by
  have h0 : q v 0 = v := by funext i; fin_cases i <;> simp [q]
  unfold qInv
  rw [c32_q_add, c32_q_add]
  simp [h0]

/-- C32: the same with the mechanical angle. -/
theorem c32_q_inv_me (p : ℝ) (v : Fin 2 → ℝ) (eps : ℝ) :
    qInvMe p (qMe p v eps) eps = v ∧ qMe p (qInvMe p v eps) eps = v := by
  have := c32_q_inv v (eps * p)
  unfold qInvMe qMe
  unfold qInv at this
  rwa [neg_mul]

/-- C32: rotations preserve length. -/
theorem c32_q_length (v : Fin 2 → ℝ) (eps : ℝ) : (q v eps 0) ^ 2 + (q v eps 1) ^ 2 = v 0 ^ 2 + v 1 ^ 2 := by
  have := Real.sin_sq_add_cos_sq eps
  simp only [q, Matrix.cons_val_zero, Matrix.cons_val_one]
  linear_combination (v 0 ^ 2 + v 1 ^ 2) * this

/-- C32: dq → abc → dq is the identity, abc → dq → abc the identity on zero-sum quantities. -/
theorem c32_round_trip (eps : ℝ) :
    (∀ v, qInv (t23 (t32 (q v eps))) eps = v) ∧
      ∀ v : Fin 3 → ℝ, v 0 + v 1 + v 2 = 0 → t32 (q (qInv (t23 v) eps) eps) = v := by
  refine ⟨fun v => ?_, fun v h => ?_⟩
  · rw [c32_t23_t32, (c32_q_inv v eps).1]
  · rw [(c32_q_inv _ eps).2, (c32_t32_t23 v).2 h]

/-- C32: a balanced three phase system of amplitude `A` and electrical angle `a` has dq components of length `A` in a frame
at any angle; in a frame at angle `a` it is the vector `(A, 0)`. -/
theorem c32_balanced (A a eps : ℝ) :
    let v := qInv (t23 ![A * Real.cos a, A * Real.cos (a - 2 / 3 * Real.pi), A * Real.cos (a + 2 / 3 * Real.pi)]) eps
    v = ![A * Real.cos (a - eps), A * Real.sin (a - eps)] ∧ v 0 ^ 2 + v 1 ^ 2 = A ^ 2 := by
  have hc : Real.cos (2 / 3 * Real.pi) = -(1 / 2) := by
    rw [show 2 / 3 * Real.pi = Real.pi - Real.pi / 3 by ring, Real.cos_pi_sub, Real.cos_pi_div_three]
  have hs : Real.sin (2 / 3 * Real.pi) = √3 / 2 := by
    rw [show 2 / 3 * Real.pi = Real.pi - Real.pi / 3 by ring, Real.sin_pi_sub, Real.sin_pi_div_three]
  have h3 : √3 * √3 = (3 : ℝ) := Real.mul_self_sqrt (by norm_num)
  have e : t23 ![A * Real.cos a, A * Real.cos (a - 2 / 3 * Real.pi), A * Real.cos (a + 2 / 3 * Real.pi)] =
      ![A * Real.cos a, A * Real.sin a] := by
    funext i
    fin_cases i <;> simp [t23, Matrix.mulVec, dotProduct, Fin.sum_univ_succ, Real.cos_add, Real.cos_sub, hc, hs]
    · ring
    · linear_combination (1 / 3 * A * Real.sin a) * h3
  intro v
  have ev : v = ![A * Real.cos (a - eps), A * Real.sin (a - eps)] := by
    show qInv (t23 _) eps = _
    rw [e]
    funext i
    fin_cases i <;> simp [qInv, q, Real.cos_sub, Real.sin_sub] <;> ring
  refine ⟨ev, ?_⟩
  rw [ev]
  have := Real.sin_sq_add_cos_sq (a - eps)
  simp only [Matrix.cons_val_zero, Matrix.cons_val_one]
  linear_combination A ^ 2 * this

/-- C32: power in phase quantities is 3/2 times the power in alpha/beta quantities (zero-sum currents), the factor used in
all torque and energy expressions. -/
theorem c32_power (u i : Fin 3 → ℝ) (hi : i 0 + i 1 + i 2 = 0) :
    u 0 * i 0 + u 1 * i 1 + u 2 * i 2 = 3 / 2 * (t23 u 0 * t23 i 0 + t23 u 1 * t23 i 1) := by
  have h3 : √3 * √3 = (3 : ℝ) := Real.mul_self_sqrt (by norm_num)
  have e0 : i 0 = -i 1 - i 2 := by linarith
  simp [t23, Matrix.mulVec, dotProduct, Fin.sum_univ_succ, e0]
  linear_combination (-(1 / 6) * (u 1 - u 2) * (i 1 - i 2)) * h3

/-- A zero-sum vector and one that is not. -/
example : t32 (t23 ![1, 2, -3]) = ![1, 2, -3] ∧ t32 (t23 ![1, 1, 1]) ≠ ![1, 1, 1] := by
  constructor
  · exact (c32_t32_t23 _).2 (by simp; norm_num)
  · rw [Ne, c32_t32_t23]; simp; norm_num

end transforms

end GEM.Props
