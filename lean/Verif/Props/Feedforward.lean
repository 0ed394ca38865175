import Mathlib.Analysis.SpecialFunctions.Trigonometric.Deriv
import Mathlib.Tactic.FieldSimp
import Mathlib.Tactic.LinearCombination
import Mathlib.Tactic.Linarith
import Verif.Model.Control
import Verif.Proofs.Motors
import Verif.Props.Motors

/-!
# C53, C84: decoupling of the current controllers and transformation of the voltages
-/

set_option linter.unusedSectionVars false

namespace GEM.Props

open GEM GEM.Ctl GEM.Motor

section

variable {K : Type} [Field K] [LinearOrder K] [IsStrictOrderedRing K] {m : ℕ}

/-- C53.  Series motor: with decoupling the current obeys `(l_a + l_e) di/dt = u - (r_a + r_e) i`, at every speed. -/
theorem c53_series (mp : DcParams K) (hl : mp.la + mp.le ≠ 0) (s : Fin m → K) (i omega : Fin m) (r : Fin 1 → K) :
    (mp.la + mp.le) * seriesOde mp ![s i] (emf 1 ![mp.lePrime] ![0] ![i] omega s r) (s omega) 0
      = r 0 - (mp.ra + mp.re) * s i := by
  rw [seriesOde_eq]
  simp [emf]
  field_simp
  ring

/-- C53.  Shunt motor, armature current. -/
theorem c53_shunt (mp : DcParams K) (hl : mp.la ≠ 0) (s : Fin m → K) (ia ie omega : Fin m) (r : Fin 1 → K) :
    mp.la * shuntOde mp ![s ia, s ie] (emf 1 ![mp.lePrime] ![0] ![ie] omega s r) (s omega) 0 = r 0 - mp.ra * s ia := by
  rw [shuntOde, dcOde_eq]
  simp [emf]
  field_simp
  ring

/-- C53 is violated by the externally excited motor: the reader returns 0 as the number of pole pairs, so the stage adds
nothing and the induced voltage stays in the equation of the armature current. -/
theorem c53_extex_violated (mp : DcParams K) (hl : mp.la ≠ 0) (s : Fin m → K) (ia ie omega : Fin m) (r : Fin 2 → K) :
    emf 0 ![mp.lePrime, 0] ![0, 0] ![ie, ia] omega s r = r
    ∧ mp.la * dcOde mp ![s ia, s ie] (emf 0 ![mp.lePrime, 0] ![0, 0] ![ie, ia] omega s r) (s omega) 0
      = r 0 - mp.ra * s ia - mp.lePrime * s ie * s omega := by
  have h : emf 0 ![mp.lePrime, 0] ![0, 0] ![ie, ia] omega s r = r := by
    funext j
    fin_cases j <;> simp [emf]
  refine ⟨h, ?_⟩
  rw [h, dcOde_eq]
  simp
  field_simp
  ring

/-- C53.  The exciting current of the externally excited motor needs no decoupling. -/
theorem c53_extex_excitation (mp : DcParams K) (hl : mp.le ≠ 0) (s : Fin m → K) (ia ie omega : Fin m) (r : Fin 2 → K) :
    mp.le * dcOde mp ![s ia, s ie] (emf 0 ![mp.lePrime, 0] ![0, 0] ![ie, ia] omega s r) (s omega) 1
      = r 1 - mp.re * s ie := by
  rw [dcOde_eq]
  simp [emf]
  field_simp
  ring

/-- C53 is violated by the permanently excited motor, for the same reason. -/
theorem c53_permex_violated (mp : PermExParams K) (hl : mp.la ≠ 0) (s : Fin m → K) (i omega : Fin m) (r : Fin 1 → K) :
    emf 0 ![0] ![mp.psiE] ![i] omega s r = r
    ∧ mp.la * permExOde mp ![s i] (emf 0 ![0] ![mp.psiE] ![i] omega s r) (s omega) 0
      = r 0 - mp.ra * s i - mp.psiE * s omega := by
  have h : emf 0 ![0] ![mp.psiE] ![i] omega s r = r := by
    funext j
    fin_cases j
    simp [emf]
  refine ⟨h, ?_⟩
  rw [h, permExOde_eq]
  simp
  field_simp
  ring

/-- C53.  Permanent magnet synchronous motor: both axes. -/
theorem c53_pmsm (mp : SyncParams K) (hd : mp.ld ≠ 0) (hq : mp.lq ≠ 0) (s : Fin m → K) (sd sq omega : Fin m) (eps : K)
    (r : Fin 2 → K) :
    let u := emf mp.p ![-mp.lq, mp.ld] ![0, mp.psiP] ![sq, sd] omega s r
    mp.ld * syncOde (pmsmConstants mp) ![s sd, s sq, eps] u (s omega) 0 = r 0 - mp.rs * s sd
    ∧ mp.lq * syncOde (pmsmConstants mp) ![s sd, s sq, eps] u (s omega) 1 = r 1 - mp.rs * s sq := by
  intro u
  rw [pmsmOde_eq]
  constructor <;>
  · simp [u, emf]
    field_simp
    ring

/-- C53.  Synchronous reluctance motor: both axes. -/
theorem c53_synrm (mp : SyncParams K) (hd : mp.ld ≠ 0) (hq : mp.lq ≠ 0) (s : Fin m → K) (sd sq omega : Fin m) (eps : K)
    (r : Fin 2 → K) :
    let u := emf mp.p ![-mp.lq, mp.ld] ![0, 0] ![sq, sd] omega s r
    mp.ld * syncOde (synrmConstants mp) ![s sd, s sq, eps] u (s omega) 0 = r 0 - mp.rs * s sd
    ∧ mp.lq * syncOde (synrmConstants mp) ![s sd, s sq, eps] u (s omega) 1 = r 1 - mp.rs * s sq := by
  intro u
  rw [synrmOde_eq]
  constructor <;>
  · simp [u, emf]
    field_simp
    ring

/-- C53.  Externally excited synchronous motor, q axis. -/
theorem c53_eesm_q (mp : EesmParams K) (hq : mp.lq ≠ 0) (hk : mp.k ≠ 0) (s : Fin m → K)
    (sd sq e omega : Fin m) (eps : K) (r : Fin 3 → K) :
    mp.lq * eesmOde mp ![s sd, s sq, s e, eps] (emfEesm mp omega sd sq e s r) (s omega) 1 = r 1 - mp.rs * s sq := by
  rw [eesmOde_eq]
  simp [emfEesm, emf, EesmParams.lM, EesmParams.ik]
  field_simp
  ring

/-- C53 is violated by the externally excited synchronous motor: the d axis and the excitation are not decoupled.  Between
two situations that differ only in the speed by `dw`, the derivatives of the direct and of the exciting current differ; with
`kappa = l_m^2 / (l_d l_e)`, by `kappa l_q p dw i_sq / (sigma l_d)` and by
`-3/2 kappa l_m l_q p dw i_sq / (l_d sigma l_e)`. -/
theorem c53_eesm_violated (mp : EesmParams K) (hd : mp.ld ≠ 0) (hk : mp.k ≠ 0) (he : mp.le ≠ 0)
    (hs : mp.sigma ≠ 0) (s : Fin m → K) (sd sq e omega : Fin m) (h1 : sd ≠ omega) (h2 : sq ≠ omega) (h3 : e ≠ omega)
    (eps dw : K) (r : Fin 3 → K) :
    let s' := Function.update s omega (s omega + dw)
    let kappa := mp.lm ^ 2 / (mp.ld * mp.le)
    mp.sigma * mp.ld * (eesmOde mp ![s' sd, s' sq, s' e, eps] (emfEesm mp omega sd sq e s' r) (s' omega) 0
        - eesmOde mp ![s sd, s sq, s e, eps] (emfEesm mp omega sd sq e s r) (s omega) 0)
      = kappa * mp.lq * mp.p * dw * s sq
    ∧ mp.sigma * mp.le * (eesmOde mp ![s' sd, s' sq, s' e, eps] (emfEesm mp omega sd sq e s' r) (s' omega) 2
        - eesmOde mp ![s sd, s sq, s e, eps] (emfEesm mp omega sd sq e s r) (s omega) 2)
      = -(3 / 2) * kappa * mp.lm * mp.lq / mp.ld * mp.p * dw * s sq := by
  intro s' kappa
  have e1 : s' sd = s sd := Function.update_of_ne h1 _ _
  have e2 : s' sq = s sq := Function.update_of_ne h2 _ _
  have e3 : s' e = s e := Function.update_of_ne h3 _ _
  have e4 : s' omega = s omega + dw := Function.update_self ..
  rw [eesmOde_eq, eesmOde_eq]
  constructor
  · simp only [emfEesm, emf, e1, e2, e3, e4, EesmParams.lM, EesmParams.lE, EesmParams.rE, EesmParams.ik, kappa]
    simp [e2]
    field_simp
    ring
  · simp only [emfEesm, emf, e1, e2, e3, e4, EesmParams.lM, EesmParams.lE, EesmParams.rE, EesmParams.ik, kappa]
    simp [e2]
    field_simp
    ring

end

section
open Motor
/-- A series motor at speed 100 with 5 A: the induced voltage of 1 V is compensated. -/
example : emf 1 ![(1 : ℚ) / 500] ![0] ![(1 : Fin 2)] 0 ![100, 5] ![12] = ![13] := by
  funext j; fin_cases j; norm_num [emf]

/-- Without compensation the same armature current of an externally excited motor rises at different rates at different speeds. -/
example :
    let mp : DcParams ℚ := ⟨1, 2, 1 / 10, 1 / 5, 3⟩
    dcOde mp ![4, 5] (emf 0 ![mp.lePrime, 0] ![0, 0] ![2, 1] 0 ![100, 4, 5] ![150, 3]) 100 0 = 460
    ∧ dcOde mp ![4, 5] (emf 0 ![mp.lePrime, 0] ![0, 0] ![2, 1] 0 ![50, 4, 5] ![150, 3]) 50 0 = 960 := by
  intro mp
  rw [dcOde_eq, dcOde_eq]
  norm_num [emf, mp]

/-- A permanent magnet synchronous motor with three pole pairs at speed 10: both axes as at standstill. -/
example :
    let mp : SyncParams ℚ := ⟨3, 1, 2, 1, 5⟩
    let u := emf mp.p ![-mp.lq, mp.ld] ![0, mp.psiP] ![2, 1] 0 ![10, 3, 4] ![7, 8]
    u = ![-233, 248] ∧ syncOde (pmsmConstants mp) ![3, 4, 0] u 10 0 = 4 ∧ syncOde (pmsmConstants mp) ![3, 4, 0] u 10 1 = 2 := by
  intro mp u
  refine ⟨?_, ?_, ?_⟩
  · funext j; fin_cases j <;> simp [u, emf, mp] <;> norm_num
  · rw [pmsmOde_eq]; simp [u, emf, mp]; norm_num
  · rw [pmsmOde_eq]; simp [u, emf, mp]; norm_num

/-- An externally excited synchronous motor: the same control voltage, speed 0 and speed 1, different slopes of `i_sd`. -/
example :
    let mp : EesmParams ℚ := ⟨1, 3, 2, 1, 2, 1, 1, 1⟩
    eesmOde mp ![1, 1, 1, 0] (emfEesm mp 0 1 2 3 ![0, 1, 1, 1] ![5, 5, 5]) 0 0
      ≠ eesmOde mp ![1, 1, 1, 0] (emfEesm mp 0 1 2 3 ![1, 1, 1, 1] ![5, 5, 5]) 1 0 := by
  intro mp
  rw [eesmOde_eq, eesmOde_eq]
  simp [mp, emfEesm, emf, EesmParams.sigma, EesmParams.lM, EesmParams.lE, EesmParams.rE, EesmParams.ik]
  norm_num
end

/-! ## Induction motor -/

/-- The leakage inductance the stage uses is `sigma l_s` of the motor model. -/
theorem leak_eq (mp : ImParams ℝ) (hls : mp.ls ≠ 0) (hlr : mp.lr ≠ 0) :
    (mp.lsigs * mp.lsigr + mp.lsigs * mp.lm + mp.lsigr * mp.lm) / mp.lr = mp.sigma * mp.ls := by
  rw [ImParams.sigma]
  field_simp
  simp only [ImParams.ls, ImParams.lr]
  ring

theorem rot_d (c s : ℝ) (h : c ^ 2 + s ^ 2 = 1) (L : ℝ) (hL : L ≠ 0) (th a b R A B psi w0 w1 : ℝ) :
    (-s * th * a + c * ((-R * a + A * (psi * c) + B * (psi * s) + (c * w0 - s * w1)) / L)
      + (c * th * b + s * ((-R * b + A * (psi * s) - B * (psi * c) + (s * w0 + c * w1)) / L))) * L
      = th * (-s * a + c * b) * L + (-R * (c * a + s * b) + A * psi + w0) := by
  have e1 := div_mul_cancel₀ (-R * a + A * (psi * c) + B * (psi * s) + (c * w0 - s * w1)) hL
  have e2 := div_mul_cancel₀ (-R * b + A * (psi * s) - B * (psi * c) + (s * w0 + c * w1)) hL
  linear_combination c * e1 + s * e2 + (A * psi + w0) * h

theorem rot_q (c s : ℝ) (h : c ^ 2 + s ^ 2 = 1) (L : ℝ) (hL : L ≠ 0) (th a b R A B psi w0 w1 : ℝ) :
    (-(c * th * a + s * ((-R * a + A * (psi * c) + B * (psi * s) + (c * w0 - s * w1)) / L))
      + (-s * th * b + c * ((-R * b + A * (psi * s) - B * (psi * c) + (s * w0 + c * w1)) / L))) * L
      = -(th * (c * a + s * b)) * L + (-R * (-s * a + c * b) - B * psi + w1) := by
  have e1 := div_mul_cancel₀ (-R * a + A * (psi * c) + B * (psi * s) + (c * w0 - s * w1)) hL
  have e2 := div_mul_cancel₀ (-R * b + A * (psi * s) - B * (psi * c) + (s * w0 + c * w1)) hL
  linear_combination -s * e1 + c * e2 + (-B * psi + w1) * h

/-- C53.  Squirrel cage induction motor.  Along every solution of the motor equations whose rotor flux has the length `psi`
(at least 10^-4) and the angle `theta`, if the decoupled voltage is applied in the direction of the flux, then at every speed
`sigma l_s d i_sd/dt = u_d - R i_sd + sigma l_s (p - 1) omega i_sq` and
`sigma l_s d i_sq/dt = u_q - R i_sq - (p - 1) omega (sigma l_s i_sd + l_m / l_r psi)` with
`R = r_s + r_r l_m^2 / l_r^2`: the axes are decoupled from the speed exactly if the motor has one pole pair. -/
theorem c53_scim_partial (mp : ImParams ℝ) (hls : mp.ls ≠ 0) (hlr : mp.lr ≠ 0) (hs : mp.sigma ≠ 0)
    (x : ℝ → Fin 5 → ℝ) (psi theta : ℝ → ℝ) (t psi' theta' omega : ℝ) (r : Fin 2 → ℝ)
    (hpsi : 1 / 10000 ≤ psi t) (hdpsi : HasDerivAt psi psi' t) (hdtheta : HasDerivAt theta theta' t)
    (ha : ∀ τ, x τ 2 = psi τ * Real.cos (theta τ)) (hb : ∀ τ, x τ 3 = psi τ * Real.sin (theta τ))
    (hx : ∀ j, HasDerivAt (fun τ => x τ j) (scimOde mp (x t)
      (q (emfInd mp omega (qInv ![x t 0, x t 1] (theta t) 0) (qInv ![x t 0, x t 1] (theta t) 1) (psi t) r) (theta t))
      omega j) t) :
    let isd := fun τ => qInv ![x τ 0, x τ 1] (theta τ) 0
    let isq := fun τ => qInv ![x τ 0, x τ 1] (theta τ) 1
    let R := mp.rs + mp.rr * mp.lm ^ 2 / mp.lr ^ 2
    let L := mp.sigma * mp.ls
    HasDerivAt isd ((r 0 - R * isd t + L * (mp.p - 1) * omega * isq t) / L) t
    ∧ HasDerivAt isq ((r 1 - R * isq t - (mp.p - 1) * omega * (L * isd t + mp.lm / mp.lr * psi t)) / L) t := by
  intro isd isq R L
  have hL : L ≠ 0 := mul_ne_zero hs hls
  have hp0 : psi t ≠ 0 := by intro h; rw [h] at hpsi; norm_num at hpsi
  have esd : ∀ τ, isd τ = Real.cos (theta τ) * x τ 0 + Real.sin (theta τ) * x τ 1 := by
    intro τ; simp [isd, qInv, q]
  have esq : ∀ τ, isq τ = -Real.sin (theta τ) * x τ 0 + Real.cos (theta τ) * x τ 1 := by
    intro τ; simp [isq, qInv, q]
  have hcs := Real.cos_sq_add_sin_sq (theta t)
  have hc := (Real.hasDerivAt_cos (theta t)).comp t hdtheta
  have hsn := (Real.hasDerivAt_sin (theta t)).comp t hdtheta
  -- the voltage
  set w := emfInd mp omega (isd t) (isq t) (psi t) r with hw
  have hx' : ∀ j, HasDerivAt (fun τ => x τ j) (scimOde mp (x t) (q w (theta t)) omega j) t := hx
  have hlsig : mp.lsigr + mp.lm = mp.lr := by simp [ImParams.lr, add_comm]
  have hoS : omegaS mp omega (isq t) (psi t) = omega + mp.rr * mp.lm / mp.lr * isq t / psi t := by
    have h1 : |psi t| = psi t := abs_of_pos (by linarith)
    simp only [omegaS, hlsig, h1, max_eq_left hpsi, sgn, if_pos (show (0 : ℝ) < psi t by linarith), mul_one]
  have hw0 : w 0 = r 0 - (omega + mp.rr * mp.lm / mp.lr * isq t / psi t) * L * isq t - mp.lm * mp.rr / mp.lr ^ 2 * psi t := by
    simp only [hw, emfInd, hoS, hlsig, leak_eq mp hls hlr]
    simp
    ring
  have hw1 : w 1 = r 1 + (omega + mp.rr * mp.lm / mp.lr * isq t / psi t) * L * isd t + omega * mp.lm / mp.lr * psi t := by
    simp only [hw, emfInd, hoS, hlsig, leak_eq mp hls hlr]
    simp [L]
  -- derivatives of the currents and fluxes
  have htr : 1 / mp.tauR = mp.rr / mp.lr := by
    simp only [ImParams.tauR, one_div, inv_div]
  have hts : 1 / mp.tauSig = R / L := by
    simp only [ImParams.tauSig, one_div, inv_div]
    rfl
  have d0 : scimOde mp (x t) (q w (theta t)) omega 0 = (-R * x t 0 + mp.lm * mp.rr / mp.lr ^ 2 * x t 2
      + mp.lm / mp.lr * mp.p * omega * x t 3 + (Real.cos (theta t) * w 0 - Real.sin (theta t) * w 1)) / L := by
    rw [scimOde, imOde_eq]
    simp only [Matrix.cons_val_zero, q]
    simp
    rw [show mp.tauSig = L / R by simp only [ImParams.tauSig]; rfl]
    simp only [L]
    field_simp
    try ring
  have d1 : scimOde mp (x t) (q w (theta t)) omega 1 = (-R * x t 1 + mp.lm * mp.rr / mp.lr ^ 2 * x t 3
      - mp.lm / mp.lr * mp.p * omega * x t 2 + (Real.sin (theta t) * w 0 + Real.cos (theta t) * w 1)) / L := by
    rw [scimOde, imOde_eq]
    simp only [Matrix.cons_val_one, q]
    simp
    rw [show mp.tauSig = L / R by simp only [ImParams.tauSig]; rfl]
    simp only [L]
    field_simp
    try ring
  have d2 : scimOde mp (x t) (q w (theta t)) omega 2
      = mp.lm * mp.rr / mp.lr * x t 0 - mp.rr / mp.lr * x t 2 - omega * mp.p * x t 3 := by
    rw [scimOde, imOde_eq]
    simp
    rw [show mp.tauR = mp.lr / mp.rr from rfl]
    field_simp
    try ring
  have d3 : scimOde mp (x t) (q w (theta t)) omega 3
      = mp.lm * mp.rr / mp.lr * x t 1 - mp.rr / mp.lr * x t 3 + omega * mp.p * x t 2 := by
    rw [scimOde, imOde_eq]
    simp
    rw [show mp.tauR = mp.lr / mp.rr from rfl]
    field_simp
    try ring
  -- the speed of the flux
  have h2 : HasDerivAt (fun τ => x τ 2) (psi' * Real.cos (theta t) + psi t * (-Real.sin (theta t) * theta')) t := by
    have := hdpsi.mul hc
    refine this.congr_of_eventuallyEq (Filter.Eventually.of_forall ha)
  have h3 : HasDerivAt (fun τ => x τ 3) (psi' * Real.sin (theta t) + psi t * (Real.cos (theta t) * theta')) t := by
    have := hdpsi.mul hsn
    refine this.congr_of_eventuallyEq (Filter.Eventually.of_forall hb)
  have u2 := (hx' 2).unique h2
  have u3 := (hx' 3).unique h3
  rw [d2, ha, hb] at u2
  rw [d3, ha, hb] at u3
  have hth : psi t * theta' = mp.lm * mp.rr / mp.lr * isq t + omega * mp.p * psi t := by
    rw [esq]
    linear_combination (-Real.sin (theta t)) * -u2 + Real.cos (theta t) * -u3
      + (omega * mp.p * psi t - psi t * theta') * hcs
  have hth' : theta' = mp.rr * mp.lm / mp.lr * isq t / psi t + omega * mp.p := by
    field_simp
    field_simp at hth
    linear_combination hth
  have hd : HasDerivAt isd ((-Real.sin (theta t) * theta') * x t 0 + Real.cos (theta t) * scimOde mp (x t) (q w (theta t)) omega 0
      + ((Real.cos (theta t) * theta') * x t 1 + Real.sin (theta t) * scimOde mp (x t) (q w (theta t)) omega 1)) t :=
    ((hc.mul (hx' 0)).add (hsn.mul (hx' 1))).congr_of_eventuallyEq (Filter.Eventually.of_forall esd)
  have hq : HasDerivAt isq (-((Real.cos (theta t) * theta') * x t 0 + Real.sin (theta t) * scimOde mp (x t) (q w (theta t)) omega 0)
      + ((-Real.sin (theta t) * theta') * x t 1 + Real.cos (theta t) * scimOde mp (x t) (q w (theta t)) omega 1)) t :=
    ((hsn.mul (hx' 0)).neg.add (hc.mul (hx' 1))).congr_of_eventuallyEq (Filter.Eventually.of_forall fun τ => by
      rw [esq]; simp; try ring)
  have hpw := ha t
  have hqw := hb t
  constructor
  · convert hd using 1
    rw [d0, d1, hpw, hqw, div_eq_iff hL]
    have : (-Real.sin (theta t) * theta' * x t 0 + Real.cos (theta t) * ((-R * x t 0 + mp.lm * mp.rr / mp.lr ^ 2 * (psi t * Real.cos (theta t)) + mp.lm / mp.lr * mp.p * omega * (psi t * Real.sin (theta t)) + (Real.cos (theta t) * w 0 - Real.sin (theta t) * w 1)) / L) + (Real.cos (theta t) * theta' * x t 1 + Real.sin (theta t) * ((-R * x t 1 + mp.lm * mp.rr / mp.lr ^ 2 * (psi t * Real.sin (theta t)) - mp.lm / mp.lr * mp.p * omega * (psi t * Real.cos (theta t)) + (Real.sin (theta t) * w 0 + Real.cos (theta t) * w 1)) / L))) * L
      = theta' * isq t * L + (-R * isd t + mp.lm * mp.rr / mp.lr ^ 2 * psi t + w 0) := by
      rw [esd, esq]
      exact rot_d _ _ hcs _ hL ..
    rw [this, hw0, hth']
    ring
  · convert hq using 1
    rw [d0, d1, hpw, hqw, div_eq_iff hL]
    have : (-(Real.cos (theta t) * theta' * x t 0 + Real.sin (theta t) * ((-R * x t 0 + mp.lm * mp.rr / mp.lr ^ 2 * (psi t * Real.cos (theta t)) + mp.lm / mp.lr * mp.p * omega * (psi t * Real.sin (theta t)) + (Real.cos (theta t) * w 0 - Real.sin (theta t) * w 1)) / L)) + (-Real.sin (theta t) * theta' * x t 1 + Real.cos (theta t) * ((-R * x t 1 + mp.lm * mp.rr / mp.lr ^ 2 * (psi t * Real.sin (theta t)) - mp.lm / mp.lr * mp.p * omega * (psi t * Real.cos (theta t)) + (Real.sin (theta t) * w 0 + Real.cos (theta t) * w 1)) / L))) * L
      = -(theta' * isd t) * L + (-R * isq t - mp.lm / mp.lr * mp.p * omega * psi t + w 1) := by
      rw [esd, esq]
      exact rot_q _ _ hcs _ hL ..
    rw [this, hw1, hth']
    ring

/-- C53.  With one pole pair both axes of the induction motor are decoupled, at every speed. -/
theorem c53_scim_one_pair (mp : ImParams ℝ) (hp : mp.p = 1) (hls : mp.ls ≠ 0) (hlr : mp.lr ≠ 0)
    (hs : mp.sigma ≠ 0)
    (x : ℝ → Fin 5 → ℝ) (psi theta : ℝ → ℝ) (t psi' theta' omega : ℝ) (r : Fin 2 → ℝ)
    (hpsi : 1 / 10000 ≤ psi t) (hdpsi : HasDerivAt psi psi' t) (hdtheta : HasDerivAt theta theta' t)
    (ha : ∀ τ, x τ 2 = psi τ * Real.cos (theta τ)) (hb : ∀ τ, x τ 3 = psi τ * Real.sin (theta τ))
    (hx : ∀ j, HasDerivAt (fun τ => x τ j) (scimOde mp (x t)
      (q (emfInd mp omega (qInv ![x t 0, x t 1] (theta t) 0) (qInv ![x t 0, x t 1] (theta t) 1) (psi t) r) (theta t))
      omega j) t) (j : Fin 2) :
    HasDerivAt (fun τ => qInv ![x τ 0, x τ 1] (theta τ) j)
      ((r j - (mp.rs + mp.rr * mp.lm ^ 2 / mp.lr ^ 2) * qInv ![x t 0, x t 1] (theta t) j) / (mp.sigma * mp.ls)) t := by
  have h := c53_scim_partial mp hls hlr hs x psi theta t psi' theta' omega r hpsi hdpsi hdtheta ha hb hx
  simp only [hp, sub_self, mul_zero, zero_mul, add_zero, sub_zero] at h
  fin_cases j
  · exact h.1
  · exact h.2

/-- A braked induction motor whose flux stands still while the rotor turns with speed 1 (`p` pole pairs: `i_sq = -2 p`);
it meets the hypotheses of `c53_scim_partial`, for one pole pair with the voltage `R i` that keeps the currents constant. -/
example :
    let mp : ImParams ℝ := ⟨1, 1, 1, 1, 1, 1⟩
    let x : ℝ → Fin 5 → ℝ := fun τ => ![1, -2, 1, 0, τ]
    let r : Fin 2 → ℝ := ![5 / 4, -(5 / 2)]
    (∀ τ, x τ 2 = 1 * Real.cos 0) ∧ (∀ τ, x τ 3 = 1 * Real.sin 0)
    ∧ ∀ j t, HasDerivAt (fun τ => x τ j) (scimOde mp (x t)
      (q (emfInd mp 1 (qInv ![x t 0, x t 1] 0 0) (qInv ![x t 0, x t 1] 0 1) 1 r) 0) 1 j) t := by
  intro mp x r
  refine ⟨by simp [x], by simp [x], ?_⟩
  intro j t
  rw [scimOde, imOde_eq]
  fin_cases j
  · refine (hasDerivAt_const t (1 : ℝ)).congr_deriv ?_
    simp [x, r, mp, q, qInv, emfInd, omegaS, sgn, ImParams.tauSig, ImParams.sigma, ImParams.ls, ImParams.lr]
    try norm_num
  · refine (hasDerivAt_const t (-2 : ℝ)).congr_deriv ?_
    simp [x, r, mp, q, qInv, emfInd, omegaS, sgn, ImParams.tauSig, ImParams.sigma, ImParams.ls, ImParams.lr]
    try norm_num
  · refine (hasDerivAt_const t (1 : ℝ)).congr_deriv ?_
    simp [x, mp, ImParams.tauR, ImParams.lr]
    try norm_num
  · refine (hasDerivAt_const t (0 : ℝ)).congr_deriv ?_
    simp [x, mp, ImParams.tauR, ImParams.lr]
    try norm_num
  · refine (hasDerivAt_id t).congr_deriv ?_
    norm_num [mp]

/-- C53 is violated by induction motors with two pole pairs: here the flux stands still while the rotor turns, and although
the control voltage is `R i`, which would keep the decoupled current constant, the direct current changes. -/
theorem c53_scim_violated : ∃ (mp : ImParams ℝ) (s : Fin 5 → ℝ) (omega : ℝ) (r : Fin 2 → ℝ),
    mp.p = 2 ∧ r 0 = (mp.rs + mp.rr * mp.lm ^ 2 / mp.lr ^ 2) * s 0 ∧ r 1 = (mp.rs + mp.rr * mp.lm ^ 2 / mp.lr ^ 2) * s 1
    ∧ s 2 = 1 ∧ s 3 = 0
    ∧ scimOde mp s (q (emfInd mp omega (s 0) (s 1) 1 r) 0) omega 2 = 0
    ∧ scimOde mp s (q (emfInd mp omega (s 0) (s 1) 1 r) 0) omega 3 = 0
    ∧ scimOde mp s (q (emfInd mp omega (s 0) (s 1) 1 r) 0) omega 0 = -4 := by
  refine ⟨⟨2, 1, 1, 1, 1, 1⟩, ![1, -4, 1, 0, 0], 1, ![5 / 4, -5], rfl, ?_, ?_, by simp, by simp, ?_, ?_, ?_⟩
  · norm_num [ImParams.lr]
  · norm_num [ImParams.lr]
  · rw [scimOde, imOde_eq]; simp [ImParams.tauR, ImParams.lr]
  · rw [scimOde, imOde_eq]; simp [ImParams.tauR, ImParams.lr]; norm_num
  · rw [scimOde, imOde_eq]
    simp [q, emfInd, omegaS, sgn, ImParams.tauSig, ImParams.sigma, ImParams.ls, ImParams.lr]
    norm_num

/-! ## C84: transformation of the set voltages into phase voltages -/

/-- C84.  Whatever the angle, speed and settings, the phase voltages add up to zero and have the amplitude of the set
voltage. -/
theorem c84_amplitude (c : Abc) (angle omega : ℝ) (u : Fin 2 → ℝ) :
    let v := c.call angle omega u
    v 0 + v 1 + v 2 = 0 ∧ t23 v 0 ^ 2 + t23 v 1 ^ 2 = u 0 ^ 2 + u 1 ^ 2 := by
  refine ⟨c32_t32_zero_sum _, ?_⟩
  simp only [Abc.call, c32_t23_t32, c32_q_length]

/-- C84.  Seen from the rotor at the time `delay` after the measurement, when a motor with `p` pole pairs has turned by
`p omega delay`, the voltage is the set voltage turned by `factor 10^-4 omega - p omega delay`. -/
theorem c84_seen (dead : Option Bool) (angle omega p delay : ℝ) (u : Fin 2 → ℝ) :
    qInv (t23 ((Abc.tune dead).call angle omega u)) (angle + p * omega * delay)
      = q u (((if dead = some true then 3 / 2 else 1 / 2) / 10000 - p * delay) * omega) := by
  rw [Abc.call, c32_t23_t32, qInv, c32_q_add]
  congr 1
  simp only [Abc.angle, Abc.tune]
  ring

/-- C84, the part that holds: for a motor with one pole pair and a sampling time of 10^-4 the voltage appears in the middle
of the sampling interval exactly as set. -/
theorem c84_middle_partial (angle omega : ℝ) (u : Fin 2 → ℝ) :
    qInv (t23 ((Abc.tune none).call angle omega u)) (angle + 1 * omega * (1 / 10000 / 2)) = u := by
  rw [c84_seen]
  have : ((if (none : Option Bool) = some true then (3 : ℝ) / 2 else 1 / 2) / 10000 - 1 * (1 / 10000 / 2)) * omega = 0 := by
    simp; norm_num
  rw [this]
  funext j
  fin_cases j <;> simp [q]

/-- C84 is violated for all other motors and sampling times: at every speed up to `pi / |p tau - 10^-4|` other than
standstill, a nonzero direct voltage appears turned away from the direct axis. -/
theorem c84_middle_violated (angle omega p tau ud : ℝ) (hud : ud ≠ 0) (hw : omega ≠ 0) (hp : p * tau ≠ 1 / 10000)
    (hmax : |(1 / 10000 - p * tau) / 2 * omega| < Real.pi) :
    qInv (t23 ((Abc.tune none).call angle omega ![ud, 0])) (angle + p * omega * (tau / 2)) 1 ≠ 0 := by
  rw [c84_seen]
  have e : ((if (none : Option Bool) = some true then (3 : ℝ) / 2 else 1 / 2) / 10000 - p * (tau / 2)) * omega
      = (1 / 10000 - p * tau) / 2 * omega := by
    rw [if_neg (by simp)]
    ring
  rw [e]
  set a := (1 / 10000 - p * tau) / 2 * omega with ha
  have ha0 : a ≠ 0 := by
    apply mul_ne_zero _ hw
    intro h
    apply hp
    linarith
  have hs : Real.sin a ≠ 0 := by
    rw [abs_lt] at hmax
    rcases lt_or_gt_of_ne ha0 with h | h
    · have := Real.sin_pos_of_pos_of_lt_pi (x := -a) (by linarith) (by linarith)
      rw [Real.sin_neg] at this
      linarith
    · exact (Real.sin_pos_of_pos_of_lt_pi h hmax.2).ne'
  simp [q, hs, hud]

/-- A motor with three pole pairs at 300 rad/s and the sampling time 10^-4: the error is 0.03 rad. -/
example : |((1 : ℝ) / 10000 - 3 * (1 / 10000)) / 2 * 300| = 3 / 100 := by norm_num [abs_of_neg]

/-- C84 is violated with dead time as well: the converters of the library have no attribute `dead_time`, so the factor is
one half although the voltage becomes effective one sampling interval later. -/
theorem c84_dead_time_violated (angle omega tau ud : ℝ) (hud : ud ≠ 0) (ht : tau = 1 / 10000) (hw : omega ≠ 0)
    (hmax : |tau * omega| < Real.pi) :
    qInv (t23 ((Abc.tune none).call angle omega ![ud, 0])) (angle + 1 * omega * (3 / 2 * tau)) 1 ≠ 0 := by
  have h := c84_middle_violated angle omega 3 tau ud hud hw (by rw [ht]; norm_num) (by
    rwa [show (1 / 10000 - 3 * tau) / 2 * omega = -(tau * omega) by rw [ht]; ring, abs_neg])
  rwa [show angle + 1 * omega * (3 / 2 * tau) = angle + 3 * omega * (tau / 2) by ring]

end GEM.Props
