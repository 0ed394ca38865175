import Verif.Props.Selection

/-!
# C108: integrators of the operation point selection, and more about C55, C56, C86
-/

set_option linter.unusedSectionVars false

namespace GEM.Props

open GEM GEM.Ops GEM.Motor

/-! ## C108 -/

theorem modulationOf_nonneg (c : ModPar) (hu : 0 < c.uDc) (usd usq : ℝ) : 0 ≤ modulationOf c usd usq := by
  rw [modulationOf]
  positivity

/-- the integrator of the modulation controller after a sequence of calls (speed, two voltages) -/
noncomputable def modAfter (c : ModPar) (st : ModSt) (us : List (ℝ × ℝ × ℝ)) : ModSt :=
  us.foldl (fun st u => (modulation c st u.1 u.2.1 u.2.2).1) st

/-- C108, modulation controller: for speeds up to `W` the integrator is bounded by a number that does not depend on the voltages
and the number of calls. -/
theorem c108_modulation (c : ModPar) (hp : 0 < c.p) (hu : 0 < c.uDc) (hg : 0 < c.iGain) (ht : 0 ≤ c.tau) (W B R : ℝ)
    (hB : ∀ d, c.psiLow ≤ d → d ≤ c.psiHigh → |d| ≤ B) (hR : |c.resetValue| + (|c.k| + 11 / 10) * |c.aMax| * c.tau ≤ R)
    (hW : 1 / 10000 ≤ W) (hBR : B * (2 * W * c.p / c.uDc) / c.iGain ≤ R) (lim : Bool) (x : ℝ) (hx : |x| ≤ R)
    (us : List (ℝ × ℝ × ℝ)) (hus : ∀ u ∈ us, |u.1| ≤ W) :
    ∃ y, (modAfter c ⟨some x, lim⟩ us).integrated = some y ∧ |y| ≤ R := by
  have hr : |c.resetValue| ≤ R := le_trans (by
    have : 0 ≤ (|c.k| + 11 / 10) * |c.aMax| * c.tau := by positivity
    linarith) hR
  have hW0 : 0 < W := lt_of_lt_of_le (by norm_num) hW
  have step : ∀ (lim : Bool) (x omega usd usq : ℝ), |x| ≤ R → |omega| ≤ W →
      ∃ y lim', (modulation c ⟨some x, lim⟩ omega usd usq).1 = ⟨some y, lim'⟩ ∧ |y| ≤ R := by
    intro lim x omega usd usq hx ho
    set a := modulationOf c usd usq with ha
    have ha0 : 0 ≤ a := modulationOf_nonneg c hu usd usq
    set w := max |omega| (1 / 10000) with hw
    have hw0 : 0 < w := lt_of_lt_of_le (by norm_num) (le_max_right _ _)
    have hwW : w ≤ W := max_le ho hW
    set gain := c.iGain / (2 * w * c.p / c.uDc) with hgain
    have hgain0 : 0 < gain := by positivity
    -- a change of the flux within its range comes from a small integrator
    have small : ∀ v, c.psiLow ≤ gain * v → gain * v ≤ c.psiHigh → |v| ≤ R := by
      intro v h1 h2
      have h3 := hB _ h1 h2
      rw [abs_mul, abs_of_pos hgain0] at h3
      have hB0 : 0 ≤ B := (by positivity : 0 ≤ gain * |v|).trans h3
      have h4 : |v| ≤ B / gain := by rwa [le_div_iff₀ hgain0, mul_comm]
      refine h4.trans (le_trans ?_ hBR)
      rw [hgain, div_div_eq_mul_div, ]
      gcongr
    by_cases hreset : 11 / 10 * c.aMax < a
    · by_cases hin : c.psiLow ≤ gain * ((c.k * c.aMax - a) * c.tau + c.resetValue)
        ∧ gain * ((c.k * c.aMax - a) * c.tau + c.resetValue) ≤ c.psiHigh
      · refine ⟨c.resetValue + (c.k * c.aMax - a) * c.tau, false, ?_, ?_⟩
        · simp only [modulation, ← ha, if_pos hreset, ← hw, ← hgain, if_pos hin, ite_self]
        · rw [add_comm]
          exact small _ hin.1 hin.2
      · refine ⟨c.resetValue, true, ?_, hr⟩
        simp only [modulation, ← ha, if_pos hreset, ← hw, ← hgain, if_neg hin]
    · by_cases hin : c.psiLow ≤ gain * ((c.k * c.aMax - a) * c.tau + x) ∧ gain * ((c.k * c.aMax - a) * c.tau + x) ≤ c.psiHigh
      · refine ⟨(if lim then c.resetValue else x) + (c.k * c.aMax - a) * c.tau, false, ?_, ?_⟩
        · simp only [modulation, ← ha, if_neg hreset, ← hw, ← hgain, if_pos hin]
        · cases lim with
          | false =>
            simp only [Bool.false_eq_true, if_false]
            rw [add_comm]
            exact small _ hin.1 hin.2
          | true =>
            simp only [if_true]
            refine le_trans ((abs_add_le _ _).trans (add_le_add le_rfl ?_)) hR
            rw [abs_mul, abs_of_nonneg ht]
            refine mul_le_mul_of_nonneg_right ?_ ht
            have h1 : a ≤ 11 / 10 * |c.aMax| := (not_lt.mp hreset).trans (by
              have := le_abs_self c.aMax
              linarith)
            calc |c.k * c.aMax - a| ≤ |c.k * c.aMax| + |a| := abs_sub _ _
              _ ≤ |c.k| * |c.aMax| + 11 / 10 * |c.aMax| := by
                rw [abs_mul, abs_of_nonneg ha0]
                linarith
              _ = _ := by ring
      · refine ⟨x, true, ?_, hx⟩
        simp only [modulation, ← ha, if_neg hreset, ← hw, ← hgain, if_neg hin]
  induction us generalizing x lim with
  | nil => exact ⟨x, rfl, hx⟩
  | cons u us ih =>
    obtain ⟨y, lim', h1, h2⟩ := step lim x u.1 u.2.1 u.2.2 hx (hus u (by simp))
    have := ih lim' y h2 fun v hv => hus v (by simp [hv])
    rwa [modAfter, List.foldl_cons, h1]

/-- pole pair number, voltage, time constant and gain 1, fluxes from -1 to 1, speeds up to 10 -/
example : let c : ModPar := ⟨1, 1, 1, 1, 1, 1, -1, 1, 0⟩
    (∀ d, c.psiLow ≤ d → d ≤ c.psiHigh → |d| ≤ 1) ∧ |c.resetValue| + (|c.k| + 11 / 10) * |c.aMax| * c.tau ≤ 20
      ∧ 1 * (2 * 10 * c.p / c.uDc) / c.iGain ≤ 20 := by
  refine ⟨fun d h1 h2 => abs_le.mpr ⟨h1, h2⟩, by norm_num, by norm_num⟩

/-- one call of the stage of the squirrel cage motor: flux, speed, two voltages, torque -/
structure ScimIn where
  psi : ℝ
  omega : ℝ
  usd : ℝ
  usq : ℝ
  torque : ℝ

/-- the state after a sequence of calls -/
noncomputable def scimAfter (c : Scim) (st : ModSt × Flux) (us : List ScimIn) : ModSt × Flux :=
  us.foldl (fun st u => (scimSelect c st u.psi u.omega u.usd u.usq u.torque).1) st

theorem at?_mem {α : Type} (l : List α) (i : ℤ) (a : α) (h : at? l i = .ok a) : a ∈ l := by
  rw [at?] at h
  split at h
  · rename_i b hb
    obtain rfl := Except.ok.inj h
    exact List.mem_of_getElem? hb
  · exact absurd h (by simp)

/-- the flux set by the modulation controller is never below its lower limit -/
theorem modulation_lower (c : ModPar) (hp : 0 < c.p) (hu : 0 < c.uDc) (h : c.psiLow ≤ c.psiHigh) (st : ModSt)
    (omega usd usq x : ℝ) (hx : (modulation c st omega usd usq).2 = .ok x) : c.psiLow ≤ x := by
  have h1 := (c55_flux c h st omega usd usq x hx).1
  have : 0 < max |omega| (1 / 10000 : ℝ) := lt_of_lt_of_le (by norm_num) (le_max_right _ _)
  have h2 : 0 ≤ psiAtSpeed c omega := by
    rw [psiAtSpeed]
    positivity
  linarith

/-- C108, flux controller of the squirrel cage motor: for fluxes up to `P` and a table of optimal fluxes up to `Q` its integrator
is bounded by a number that does not depend on the calls and their number. -/
theorem c108_flux (c : Scim) (hp : 0 < c.mod.p) (hu : 0 < c.mod.uDc) (hlow : c.mod.psiLow ≤ c.mod.psiHigh) (hd : 0 ≤ c.iSdLimit)
    (P Q R : ℝ) (hQ : ∀ q ∈ c.psiOpt, |q| ≤ Q) (hQ2 : -Q ≤ c.mod.psiLow) (f : Flux) (hg : 0 < f.iGain) (hpg : 0 ≤ f.pGain)
    (ht : 0 ≤ f.tau) (hR : (c.iSdLimit + f.pGain * (Q + P)) / f.iGain + (Q + P) * f.tau ≤ R) (m : ModSt) (x : ℝ) (hx : |x| ≤ R)
    (hf : f.integrator = some x) (us : List ScimIn) (hus : ∀ u ∈ us, |u.psi| ≤ P) :
    ∃ y, (scimAfter c (m, f) us).2 = { f with integrator := some y } ∧ |y| ≤ R := by
  have step : ∀ (m : ModSt) (x : ℝ) (u : ScimIn), |x| ≤ R → |u.psi| ≤ P →
      ∃ y m', (scimSelect c (m, { f with integrator := some x }) u.psi u.omega u.usd u.usq u.torque).1
        = (m', { f with integrator := some y }) ∧ |y| ≤ R := by
    intro m x u hx hu'
    simp only [scimSelect]
    split
    · exact ⟨x, m, rfl, hx⟩
    · rename_i opt hopt
      split
      · exact ⟨x, _, rfl, hx⟩
      · rename_i psiMod hmod
        split
        · exact ⟨x, _, rfl, hx⟩
        · split
          · rename_i hclip
            refine ⟨x + (min opt psiMod - u.psi) * f.tau, _, rfl, ?_⟩
            have h1 := abs_le.mp (hQ opt (at?_mem _ _ _ hopt))
            have h2 := modulation_lower c.mod hp hu hlow m u.omega u.usd u.usq psiMod hmod
            have h3 := abs_le.mp hu'
            have he : |min opt psiMod - u.psi| ≤ Q + P := by
              have h4 : -Q ≤ min opt psiMod := le_min h1.1 (hQ2.trans h2)
              have h5 : min opt psiMod ≤ Q := (min_le_left _ _).trans h1.2
              rw [abs_le]
              constructor <;> linarith
            set e := min opt psiMod - u.psi with hee
            have hout : |f.pGain * e + f.iGain * x| ≤ c.iSdLimit := by
              have : ({ f with integrator := some x } : Flux).out u.psi (min opt psiMod) = f.pGain * e + f.iGain * x := rfl
              rw [this] at hclip
              rw [hclip]
              exact clip_abs hd
            have hix : |x| ≤ (c.iSdLimit + f.pGain * (Q + P)) / f.iGain := by
              rw [le_div_iff₀ hg]
              calc |x| * f.iGain = |f.iGain * x| := by rw [abs_mul, abs_of_pos hg, mul_comm]
                _ = |(f.pGain * e + f.iGain * x) - f.pGain * e| := by rw [add_sub_cancel_left]
                _ ≤ |f.pGain * e + f.iGain * x| + |f.pGain * e| := abs_sub _ _
                _ ≤ c.iSdLimit + f.pGain * (Q + P) := by
                  rw [abs_mul, abs_of_nonneg hpg]
                  gcongr
            calc |x + e * f.tau| ≤ |x| + |e * f.tau| := abs_add_le _ _
              _ ≤ (c.iSdLimit + f.pGain * (Q + P)) / f.iGain + (Q + P) * f.tau := by
                rw [abs_mul, abs_of_nonneg ht]
                gcongr
              _ ≤ R := hR
          · exact ⟨x, _, rfl, hx⟩
  have hf' : f = { f with integrator := some x } := by rw [← hf]
  have key : ∀ (us : List ScimIn) (m : ModSt) (x : ℝ), |x| ≤ R → (∀ u ∈ us, |u.psi| ≤ P) →
      ∃ y, (scimAfter c (m, { f with integrator := some x }) us).2 = { f with integrator := some y } ∧ |y| ≤ R := by
    intro us
    induction us with
    | nil => exact fun m x hx _ => ⟨x, rfl, hx⟩
    | cons u us ih =>
      intro m x hx hus
      obtain ⟨y, m', h1, h2⟩ := step m x u hx (hus u (by simp))
      rw [scimAfter, List.foldl_cons, h1]
      exact ih m' y h2 fun v hv => hus v (by simp [hv])
  have := key us m x hx hus
  rwa [← hf'] at this

/-! ## C55: what the flux at a speed means -/

/-- C55.  Without the resistance the voltage of the motor with the largest flux at a speed, in the steady state, has the
modulation `2 / √3`, the default of `max_modulation_level`. -/
theorem c55_speed (c : ModPar) (hp : 0 < c.p) (hu : 0 < c.uDc) (omega usd usq : ℝ) (ho : 1 / 10000 ≤ |omega|)
    (h : usd ^ 2 + usq ^ 2 = (c.p * omega * psiAtSpeed c omega) ^ 2) : modulationOf c usd usq = 2 / √3 := by
  have h3 : (0 : ℝ) < √3 := Real.sqrt_pos.mpr (by norm_num)
  have ho0 : 0 < |omega| := lt_of_lt_of_le (by norm_num) ho
  rw [modulationOf, h, Real.sqrt_sq_eq_abs, psiAtSpeed, max_eq_left ho, abs_mul, abs_mul, abs_of_pos hp,
    abs_of_pos (by positivity : 0 < c.uDc / (√3 * |omega| * c.p))]
  field_simp

/-- a voltage of this kind: speed -1 -/
example : let c : ModPar := ⟨1, 1, √3, 1, 1, 1, -1, 1, 0⟩
    (1 : ℝ) ^ 2 + 0 ^ 2 = (c.p * (-1) * psiAtSpeed c (-1)) ^ 2 := by
  intro c
  have h3 : (0 : ℝ) < √3 := Real.sqrt_pos.mpr (by norm_num)
  simp only [c, psiAtSpeed]
  rw [abs_neg, abs_one, max_eq_left (by norm_num)]
  field_simp
  norm_num

/-! ## C56: the losses -/

/-- C56.  The losses of the search are the losses in the resistances of stator and rotor (factor 3/2 of the transformation) in the
steady state: the rotor currents are those with the flux `l_m i_sd` in the direct axis and 0 in the quadrature axis. -/
theorem c56_losses (mp : ImParams ℝ) (hr : mp.lr ≠ 0) (isd isq ird irq : ℝ)
    (hd : mp.lm * isd + mp.lr * ird = mp.lm * isd) (hq : mp.lm * isq + mp.lr * irq = 0) :
    scimLosses mp isd isq = 3 / 2 * (mp.rs * (isd ^ 2 + isq ^ 2) + mp.rr * (ird ^ 2 + irq ^ 2)) := by
  have h1 : ird = 0 := by
    have : mp.lr * ird = 0 := by linarith
    exact (mul_eq_zero.mp this).resolve_left hr
  have h2 : irq = -(mp.lm * isq) / mp.lr := by
    rw [eq_div_iff hr]
    linarith
  rw [scimLosses, h1, h2]
  field_simp
  ring

/-- rotor currents of this kind -/
example : (2 : ℝ) * 1 + 4 * 0 = 2 * 1 ∧ (2 : ℝ) * 3 + 4 * (-1.5) = 0 := by norm_num

/-! ## C86 -/

/-- C86.  Shunt motor with a small exciting current: the torque is the wanted one, multiplied by a number between 0 and 1. -/
theorem c86_shunt_small (mp : DcParams ℝ) (hl : mp.lePrime ≠ 0) (iaLimit ieLimit margin ie torque : ℝ) (h : |ie| < 1 / 10000)
    (hlim : |ie| ≤ ieLimit * (1 - margin)) :
    dcTorque mp ![shuntTuned mp iaLimit ieLimit margin ie torque, ie] = 10000 * |ie| * torque := by
  obtain ⟨h1, h2⟩ := abs_le.mp hlim
  obtain ⟨h3, h4⟩ := abs_lt.mp h
  rcases le_or_gt 0 ie with h0 | h0
  · simp only [dcTorque, shuntTuned, shunt, Matrix.cons_val_zero, Matrix.cons_val_one, if_neg (not_lt.mpr h2), if_neg (not_lt.mpr h1),
      if_pos (And.intro h0 h4), abs_of_nonneg h0]
    field_simp
  · have hc : ¬ (0 ≤ ie ∧ ie < 1 / 10000) := fun hc => absurd hc.1 (not_le.mpr h0)
    simp only [dcTorque, shuntTuned, shunt, Matrix.cons_val_zero, Matrix.cons_val_one, if_neg (not_lt.mpr h2), if_neg (not_lt.mpr h1),
      if_neg hc, if_pos (And.intro h0 h3), abs_of_neg h0]
    field_simp

theorem part_of (y q : ℝ) (h1 : |y| ≤ |q|) (h2 : 0 ≤ y * q) : ∃ r, 0 ≤ r ∧ r ≤ 1 ∧ y = r * q := by
  by_cases h0 : q = 0
  · rw [h0, abs_zero] at h1
    exact ⟨0, le_rfl, zero_le_one, by rw [zero_mul]; exact abs_nonpos_iff.mp h1⟩
  · refine ⟨y / q, ?_, ?_, by field_simp⟩
    · rw [← mul_div_mul_right y q h0]
      exact div_nonneg h2 (mul_self_nonneg q)
    · refine (le_abs_self _).trans ?_
      rw [abs_div, div_le_one (abs_pos.mpr h0)]
      exact h1

theorem part_clip (q a : ℝ) (ha : 0 ≤ a) : ∃ r, 0 ≤ r ∧ r ≤ 1 ∧ clip q (-a) a = r * q := by
  apply part_of
  · rcases le_total 0 q with h0 | h0
    · rw [clip, max_eq_left (by linarith), abs_of_nonneg h0, abs_of_nonneg (le_min h0 ha)]
      exact min_le_left _ _
    · rw [clip, min_eq_left (max_le (by linarith) (by linarith)), abs_of_nonpos h0, abs_of_nonpos (max_le h0 (by linarith))]
      exact neg_le_neg (le_max_left _ _)
  · rcases le_total 0 q with h0 | h0
    · rw [clip, max_eq_left (by linarith)]
      exact mul_nonneg (le_min h0 ha) h0
    · rw [clip, min_eq_left (max_le (by linarith) (by linarith))]
      exact mul_nonneg_of_nonpos_of_nonpos (max_le h0 (by linarith)) h0

/-- the torque of the currents of the squirrel cage motor is a part of the wanted one -/
theorem scim_currents_torque (c : Scim) (hp : 0 < c.mp.p) (hm : 0 < c.mp.lm) (hr : 0 < c.mp.lr) (hd : 0 ≤ c.iSdLimit)
    (hq : 0 ≤ c.iSqLimit) (psi torque fluxOut eps : ℝ) (hpsi : 0 ≤ psi) :
    let i := scimCurrents c psi torque fluxOut
    ∃ r, 0 ≤ r ∧ r ≤ 1 ∧ imTorque c.mp ![i.1, i.2, psi, 0, eps] = r * torque := by
  intro i
  set k := max psi (1 / 1000) with hk
  have hk0 : 0 < k := lt_of_lt_of_le (by norm_num) (le_max_right _ _)
  have hpk : psi ≤ k := le_max_left _ _
  set q0 := torque / k * 2 / 3 / c.mp.p * c.mp.lr / c.mp.lm with hq0
  have part : ∃ r, 0 ≤ r ∧ r ≤ 1 ∧ i.2 = r * q0 := by
    obtain ⟨r, h1, h2, h3⟩ := part_clip q0 c.iSqLimit hq
    set q := clip q0 (-c.iSqLimit) c.iSqLimit with hqq
    set d := clip fluxOut (-c.iSdLimit) c.iSdLimit with hdd
    have hi : i.2 = if c.iSdLimit < √(q ^ 2 + d ^ 2) then sign q * √(c.iSdLimit ^ 2 - d ^ 2) else q := rfl
    by_cases hc : c.iSdLimit < √(q ^ 2 + d ^ 2)
    · rw [if_pos hc] at hi
      have hle : √(c.iSdLimit ^ 2 - d ^ 2) ≤ |q| := by
        apply Real.sqrt_le_iff.mpr
        refine ⟨abs_nonneg _, ?_⟩
        rw [sq_abs]
        have := (Real.lt_sqrt hd).mp hc
        linarith
      have hS := Real.sqrt_nonneg (c.iSdLimit ^ 2 - d ^ 2)
      obtain ⟨r', h4, h5, h6⟩ := part_of (sign q * √(c.iSdLimit ^ 2 - d ^ 2)) q (by
          rcases lt_trichotomy q 0 with h | h | h
          · rw [sign_neg h, neg_one_mul, abs_neg, abs_of_nonneg hS]
            exact hle
          · rw [h, sign_zero]
            simp
          · rw [sign_pos h, one_mul, abs_of_nonneg hS]
            exact hle) (by
          have h := sign_mul_abs q
          rcases lt_trichotomy q 0 with h | h | h
          · rw [sign_neg h]
            nlinarith
          · rw [h]
            simp
          · rw [sign_pos h]
            nlinarith)
      refine ⟨r' * r, mul_nonneg h4 h1, mul_le_one₀ h5 h1 h2, ?_⟩
      rw [hi, h6, h3]
      ring
    · rw [if_neg hc] at hi
      exact ⟨r, h1, h2, by rw [hi, h3]⟩
  obtain ⟨r, h1, h2, h3⟩ := part
  refine ⟨r * (psi / k), mul_nonneg h1 (div_nonneg hpsi hk0.le), mul_le_one₀ h2 (div_nonneg hpsi hk0.le) ((div_le_one hk0).mpr hpk), ?_⟩
  simp only [imTorque]
  simp
  rw [h3, hq0]
  simp only [ImParams.lr] at hr ⊢
  field_simp

/-- C86.  Squirrel cage motor, every call that returns currents: with these currents the torque has the wanted direction and is
neither larger than the wanted one nor than the limit for the flux. -/
theorem c86_scim_limit (c : Scim) (hp : 0 < c.mp.p) (hm : 0 < c.mp.lm) (hr : 0 < c.mp.lr) (hd : 0 ≤ c.iSdLimit)
    (hq : 0 ≤ c.iSqLimit) (st : ModSt × Flux) (psi omega usd usq torque eps x y : ℝ) (hpsi : 0 ≤ psi)
    (h : (scimSelect c st psi omega usd usq torque).2 = .ok (x, y)) :
    ∃ tLim ∈ c.tMaxPsi, |imTorque c.mp ![x, y, psi, 0, eps]| ≤ min |torque| |tLim|
      ∧ 0 ≤ imTorque c.mp ![x, y, psi, 0, eps] * torque := by
  have key : ∃ tLim ∈ c.tMaxPsi, ∃ o, scimCurrents c psi (clip torque (-|tLim|) |tLim|) o = (x, y) := by
    simp only [scimSelect] at h
    split at h
    · exact absurd h (by simp)
    · split at h
      · exact absurd h (by simp)
      · split at h
        · exact absurd h (by simp)
        · rename_i tLim htl
          refine ⟨tLim, at?_mem _ _ _ htl, ?_⟩
          split at h
          · simp only [Flux.integrate] at h
            split at h
            · exact absurd h (by simp [Except.map])
            · exact ⟨_, Except.ok.inj h⟩
          · exact ⟨_, Except.ok.inj h⟩
  obtain ⟨tLim, hmem, o, ho⟩ := key
  refine ⟨tLim, hmem, ?_⟩
  obtain ⟨r, h1, h2, h3⟩ := scim_currents_torque c hp hm hr hd hq psi (clip torque (-|tLim|) |tLim|) o eps hpsi
  rw [ho] at h3
  simp only at h3
  obtain ⟨r', h4, h5, h6⟩ := part_clip torque |tLim| (abs_nonneg _)
  have habs := clip_abs (x := torque) (abs_nonneg tLim)
  rw [h3]
  refine ⟨?_, ?_⟩
  · rw [abs_mul, abs_of_nonneg h1]
    refine le_min ?_ ((mul_le_of_le_one_left (abs_nonneg _) h2).trans habs)
    rw [h6, abs_mul, abs_of_nonneg h4, ← mul_assoc]
    exact mul_le_of_le_one_left (abs_nonneg _) (mul_le_one₀ h2 h4 h5)
  · rw [h6]
    have : 0 ≤ r * r' * (torque * torque) := mul_nonneg (mul_nonneg h1 h4) (mul_self_nonneg _)
    linarith

/-- C86.  Squirrel cage motor, a whole call: when the torque is below the limit for the flux and the currents below theirs, the
torque is exactly the wanted one. -/
theorem c86_scim_select_partial (c : Scim) (hp : c.mp.p ≠ 0) (hm : c.mp.lm ≠ 0) (hr : c.mp.lr ≠ 0) (m : ModSt) (f : Flux)
    (hf : f.integrator ≠ none) (psi omega usd usq torque eps opt psiMod tLim : ℝ) (hpsi : 1 / 1000 ≤ psi)
    (h1 : at? c.psiOpt (idxPsiOpt c.tMax c.tCount torque) = .ok opt) (h2 : (modulation c.mod m omega usd usq).2 = .ok psiMod)
    (h3 : at? c.tMaxPsi (c.psiCount - idxTMax c.psiMax c.psiCount (min opt psiMod)) = .ok tLim) (ht : |torque| ≤ |tLim|)
    (h4 : |torque / psi * 2 / 3 / c.mp.p * c.mp.lr / c.mp.lm| ≤ c.iSqLimit)
    (h5 : √((torque / psi * 2 / 3 / c.mp.p * c.mp.lr / c.mp.lm) ^ 2
      + clip (f.out psi (min opt psiMod)) (-c.iSdLimit) c.iSdLimit ^ 2) ≤ c.iSdLimit) :
    ∃ x y, (scimSelect c (m, f) psi omega usd usq torque).2 = .ok (x, y) ∧ imTorque c.mp ![x, y, psi, 0, eps] = torque := by
  have hclip : clip torque (-|tLim|) |tLim| = torque := by
    obtain ⟨a, b⟩ := abs_le.mp ht
    rw [clip, max_eq_left a, min_eq_left b]
  refine ⟨_, _, ?_, c86_scim_partial c hp hm hr psi torque (f.out psi (min opt psiMod)) eps hpsi h4 h5⟩
  simp only [scimSelect, h1, h2, h3, hclip]
  split
  · simp only [Flux.integrate]
    split
    · rename_i hn
      exact absurd hn hf
    · rfl
  · rfl

end GEM.Props
