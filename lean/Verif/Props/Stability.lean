import Mathlib.Analysis.Real.Sqrt
import Verif.Props.Energy

/-!
# C105: drives stay within bounds and come to rest
-/

set_option linter.unusedSectionVars false

namespace GEM.Props

open GEM GEM.Motor GEM.Load GEM.Sys GEM.Spec Set

noncomputable section

variable {m : ℕ} {U : Type} {torque : (Fin m → ℝ) → ℝ} {elOde : (Fin m → ℝ) → U → ℝ → Fin m → ℝ} {W loss : (Fin m → ℝ) → ℝ}
  {P : (Fin m → ℝ) → U → ℝ}

/-- With voltages up to `V` the speed and the currents (and fluxes) `cur` of a drive stay within a bound that depends on the
start state and `V` only, whatever the course of the voltages, for every load whose torque grows with the speed. -/
def StaysBounded (torque : (Fin m → ℝ) → ℝ) (elOde : (Fin m → ℝ) → U → ℝ → Fin m → ℝ) (cur : List (Fin m)) (inp : ℝ → U → Prop) :
    Prop :=
  ∀ (a b c j tau : ℝ) (rs : List ℝ), PolyParams a b c j tau rs → 0 < b + c → ∀ (V : ℝ) (s0 : Fin (1 + m) → ℝ), ∃ B : ℝ,
    ∀ (u : ℝ → U) (s : ℝ → Fin (1 + m) → ℝ), Runs (systemEquation (polyMech a b c j tau rs) torque elOde 0 none) u s →
      s 0 = s0 → (∀ t, 0 ≤ t → inp V (u t)) → ∀ t, 0 ≤ t → |speed (s t)| ≤ B ∧ ∀ i ∈ cur, |motorPart (s t) i| ≤ B

/-- With viscous friction and voltages zero the stored energy decays exponentially, at a rate that depends on the parameters
only. -/
def ComesToRest (torque : (Fin m → ℝ) → ℝ) (elOde : (Fin m → ℝ) → U → ℝ → Fin m → ℝ) (W : (Fin m → ℝ) → ℝ) (zero : U) : Prop :=
  ∀ (a b c j tau : ℝ) (rs : List ℝ), PolyParams a b c j tau rs → 0 < b → ∃ κ : ℝ, 0 < κ ∧
    ∀ s : ℝ → Fin (1 + m) → ℝ, Runs (systemEquation (polyMech a b c j tau rs) torque elOde 0 none) (fun _ => zero) s →
      ∀ t, 0 ≤ t → stored W (j + rs.sum) (s t) ≤ stored W (j + rs.sum) (s 0) * Real.exp (-(κ * t))

/-- what is needed of a motor -/
structure Damped (W loss : (Fin m → ℝ) → ℝ) (P : (Fin m → ℝ) → U → ℝ) (cur : List (Fin m)) (inp : ℝ → U → Prop) : Prop where
  cont : Continuous W
  nonneg : ∀ x, 0 ≤ W x
  coercive : ∃ μ : ℝ, 0 < μ ∧ ∀ x, ∀ i ∈ cur, μ * x i ^ 2 ≤ W x
  absorbs : ∃ κ C : ℝ, 0 < κ ∧ 0 ≤ C ∧ ∀ V x u, inp V u → P x u - loss x ≤ C * V ^ 2 - κ * W x

theorem friction_power {a b c j tau : ℝ} {rs : List ℝ} (hp : PolyParams a b c j tau rs) (w : ℝ) :
    b * w ^ 2 + c * (w ^ 2 * |w|) ≤ w * friction a b c ((j + rs.sum) / tau) w := by
  have hk : 0 ≤ (j + rs.sum) / tau := by
    have : 0 ≤ rs.sum := List.sum_nonneg hp.rotors
    exact div_nonneg (by linarith [hp.j]) hp.tau.le
  have h : 0 ≤ w * max (-a) (min a ((j + rs.sum) / tau * w)) := by
    rcases le_total 0 w with hw | hw
    · exact mul_nonneg hw (le_max_of_le_right (le_min hp.a (mul_nonneg hk hw)))
    · refine mul_nonneg_of_nonpos_of_nonpos hw (max_le (by linarith [hp.a]) ?_)
      exact (min_le_right _ _).trans (mul_nonpos_of_nonneg_of_nonpos hk hw)
  unfold friction
  nlinarith

theorem cube_ge (w : ℝ) : w ^ 2 - 1 ≤ w ^ 2 * |w| := by
  rcases le_total 1 |w| with h | h
  · nlinarith [sq_nonneg w]
  · have : w ^ 2 ≤ 1 := by
      rw [← sq_abs]
      nlinarith [abs_nonneg w]
    have : 0 ≤ w ^ 2 * |w| := by positivity
    linarith

theorem total_inertia {a b c j tau : ℝ} {rs : List ℝ} (hp : PolyParams a b c j tau rs) : 0 < j + rs.sum := by
  have : 0 ≤ rs.sum := List.sum_nonneg hp.rotors
  linarith [hp.j]

theorem stays_bounded {cur : List (Fin m)} {inp : ℝ → U → Prop} (hb : LocalBalance torque elOde W loss P)
    (hd : Damped W loss P cur inp) : StaysBounded torque elOde cur inp := by
  intro a b c j tau rs hp hbc V s0
  obtain ⟨μ, hμ, hco⟩ := hd.coercive
  obtain ⟨κ1, C, hκ1, hC, hab⟩ := hd.absorbs
  have hJ := total_inertia hp
  set J := j + rs.sum with hJdef
  set κ := min κ1 (2 * (b + c) / J) with hκdef
  have hκ : 0 < κ := lt_min hκ1 (by positivity)
  set M := max (stored W J s0) ((C * V ^ 2 + c) / κ) with hM
  refine ⟨√(2 * M / J) + √(M / μ), ?_⟩
  intro u s hs h0 hu t ht
  have hle : stored W J (s t) ≤ M := by
    have key := stays_nonneg (f := fun t => M - stored W J (s t)) (continuousOn_const.sub (stored_continuous hd.cont hs J))
      (fun t ht => (drive_balance hb hp hs ht).const_sub M) ?_ ?_ t ht
    · linarith
    · rw [h0]
      linarith [le_max_left (stored W J s0) ((C * V ^ 2 + c) / κ)]
    · intro t ht hneg
      have h1 := hab V (motorPart (s t)) (u t) (hu t ht)
      have h2 := friction_power hp (speed (s t))
      have h3 := cube_ge (speed (s t))
      have h4 : (C * V ^ 2 + c) / κ < stored W J (s t) :=
        (le_max_right (stored W J s0) ((C * V ^ 2 + c) / κ)).trans_lt (by linarith)
      rw [div_lt_iff₀ hκ] at h4
      have h5 : κ * W (motorPart (s t)) ≤ κ1 * W (motorPart (s t)) :=
        mul_le_mul_of_nonneg_right (min_le_left _ _) (hd.nonneg _)
      have h6 : κ * (1 / 2 * J * speed (s t) ^ 2) ≤ (b + c) * speed (s t) ^ 2 := by
        have e : 2 * (b + c) / J * (1 / 2 * J * speed (s t) ^ 2) = (b + c) * speed (s t) ^ 2 := by field_simp
        rw [← e]
        exact mul_le_mul_of_nonneg_right (min_le_right _ _) (by positivity)
      have h7 : c * (speed (s t) ^ 2 - 1) ≤ c * (speed (s t) ^ 2 * |speed (s t)|) := mul_le_mul_of_nonneg_left h3 hp.c
      have h8 : stored W J (s t) * κ = κ * W (motorPart (s t)) + κ * (1 / 2 * J * speed (s t) ^ 2) := by
        unfold stored; ring
      linarith
  have hW := hd.nonneg (motorPart (s t))
  unfold stored at hle
  have hK : 0 ≤ 1 / 2 * J * speed (s t) ^ 2 := by positivity
  constructor
  · have : speed (s t) ^ 2 ≤ 2 * M / J := by
      rw [le_div_iff₀ hJ]; linarith
    have := Real.abs_le_sqrt this
    linarith [Real.sqrt_nonneg (M / μ)]
  · intro i hi
    have h1 := hco (motorPart (s t)) i hi
    have : motorPart (s t) i ^ 2 ≤ M / μ := by
      rw [le_div_iff₀ hμ]; linarith
    have := Real.abs_le_sqrt this
    linarith [Real.sqrt_nonneg (2 * M / J)]

theorem comes_to_rest {cur : List (Fin m)} {inp : ℝ → U → Prop} {zero : U} (hz : inp 0 zero)
    (hb : LocalBalance torque elOde W loss P) (hd : Damped W loss P cur inp) : ComesToRest torque elOde W zero := by
  intro a b c j tau rs hp hb0
  obtain ⟨κ1, C, hκ1, hC, hab⟩ := hd.absorbs
  have hJ := total_inertia hp
  set J := j + rs.sum with hJdef
  set κ := min κ1 (2 * b / J) with hκdef
  have hκ : 0 < κ := lt_min hκ1 (by positivity)
  refine ⟨κ, hκ, ?_⟩
  intro s hs t ht
  have hexp : ∀ t : ℝ, HasDerivAt (fun t => Real.exp (κ * t)) (Real.exp (κ * t) * κ) t := fun t => by
    have := ((hasDerivAt_id t).const_mul κ).exp
    simpa using this
  have key := stays_nonneg (f := fun t => stored W J (s 0) - stored W J (s t) * Real.exp (κ * t))
    (continuousOn_const.sub ((stored_continuous hd.cont hs J).mul (by fun_prop)))
    (fun t ht => ((drive_balance hb hp hs ht).mul (hexp t).hasDerivWithinAt).const_sub _) (by simp) ?_ t ht
  · have : stored W J (s t) = stored W J (s t) * Real.exp (κ * t) * Real.exp (-(κ * t)) := by
      rw [mul_assoc, ← Real.exp_add]; simp
    rw [this]
    exact mul_le_mul_of_nonneg_right (by linarith) (Real.exp_pos _).le
  · intro t ht _
    have h1 := hab 0 (motorPart (s t)) zero hz
    have h2 := friction_power hp (speed (s t))
    have h5 : κ * W (motorPart (s t)) ≤ κ1 * W (motorPart (s t)) :=
      mul_le_mul_of_nonneg_right (min_le_left _ _) (hd.nonneg _)
    have h6 : κ * (1 / 2 * J * speed (s t) ^ 2) ≤ b * speed (s t) ^ 2 := by
      have e : 2 * b / J * (1 / 2 * J * speed (s t) ^ 2) = b * speed (s t) ^ 2 := by field_simp
      rw [← e]
      exact mul_le_mul_of_nonneg_right (min_le_right _ _) (by positivity)
    have h7 : 0 ≤ c * (speed (s t) ^ 2 * |speed (s t)|) := mul_nonneg hp.c (by positivity)
    have h8 : stored W J (s t) * κ = κ * W (motorPart (s t)) + κ * (1 / 2 * J * speed (s t) ^ 2) := by
      unfold stored; ring
    have h9 : 0 ≤ -(P (motorPart (s t)) zero - loss (motorPart (s t))
        - speed (s t) * friction a b c (J / tau) (speed (s t)) + stored W J (s t) * κ) := by
      linarith
    have := mul_nonneg h9 (Real.exp_pos (κ * t)).le
    linarith

/-! ## The motors -/

theorem young {u x V r : ℝ} (hr : 0 < r) (hu : |u| ≤ V) : u * x - r * x ^ 2 ≤ 1 / (2 * r) * V ^ 2 - 1 / 2 * (r * x ^ 2) := by
  have h1 : u * x ≤ V * |x| := by
    calc u * x ≤ |u * x| := le_abs_self _
      _ = |u| * |x| := abs_mul _ _
      _ ≤ V * |x| := mul_le_mul_of_nonneg_right hu (abs_nonneg _)
  have h2 : 0 ≤ (r * |x| - V) ^ 2 / (2 * r) := by positivity
  have h3 : (r * |x| - V) ^ 2 / (2 * r) = 1 / 2 * (r * x ^ 2) - V * |x| + 1 / (2 * r) * V ^ 2 := by
    rw [← sq_abs x]; field_simp; ring
  linarith

/-- voltages up to `V` -/
def Volts {k : ℕ} (V : ℝ) (u : Fin k → ℝ) : Prop := ∀ i, |u i| ≤ V

theorem rate_le {κ r l : ℝ} (h : κ ≤ r / l) (hl : 0 < l) (x : ℝ) : κ * (1 / 2 * l * x ^ 2) ≤ 1 / 2 * (r * x ^ 2) := by
  rw [le_div_iff₀ hl] at h
  nlinarith [sq_nonneg x]

theorem dc_damped (mp : DcParams ℝ) (hla : 0 < mp.la) (hle : 0 < mp.le) (hra : 0 < mp.ra) (hre : 0 < mp.re) :
    Damped (dcW mp) (dcLoss mp) dcP [0, 1] Volts where
  cont := by unfold dcW; fun_prop
  nonneg x := by unfold dcW; positivity
  coercive := by
    refine ⟨min (1 / 2 * mp.la) (1 / 2 * mp.le), lt_min (by positivity) (by positivity), fun x i hi => ?_⟩
    have h1 : min (1 / 2 * mp.la) (1 / 2 * mp.le) ≤ 1 / 2 * mp.la := min_le_left _ _
    have h2 : min (1 / 2 * mp.la) (1 / 2 * mp.le) ≤ 1 / 2 * mp.le := min_le_right _ _
    have p0 : 0 ≤ 1 / 2 * mp.la * x 0 ^ 2 := by positivity
    have p1 : 0 ≤ 1 / 2 * mp.le * x 1 ^ 2 := by positivity
    unfold dcW
    fin_cases i
    · have := mul_le_mul_of_nonneg_right h1 (sq_nonneg (x 0)); simp only [Fin.zero_eta]; linarith
    · have := mul_le_mul_of_nonneg_right h2 (sq_nonneg (x 1)); simp only [Fin.mk_one]; linarith
  absorbs := by
    refine ⟨min (mp.ra / mp.la) (mp.re / mp.le), 1 / (2 * mp.ra) + 1 / (2 * mp.re), lt_min (by positivity) (by positivity),
      by positivity, fun V x u hu => ?_⟩
    have y0 := young (x := x 0) hra (hu 0)
    have y1 := young (x := x 1) hre (hu 1)
    have r0 := rate_le (min_le_left (mp.ra / mp.la) (mp.re / mp.le)) hla (x 0)
    have r1 := rate_le (min_le_right (mp.ra / mp.la) (mp.re / mp.le)) hle (x 1)
    unfold dcP dcLoss dcW
    rw [add_mul, mul_add]
    linarith

theorem shunt_damped (mp : DcParams ℝ) (hla : 0 < mp.la) (hle : 0 < mp.le) (hra : 0 < mp.ra) (hre : 0 < mp.re) :
    Damped (dcW mp) (dcLoss mp) shuntP [0, 1] Volts where
  cont := (dc_damped mp hla hle hra hre).cont
  nonneg := (dc_damped mp hla hle hra hre).nonneg
  coercive := (dc_damped mp hla hle hra hre).coercive
  absorbs := by
    obtain ⟨κ, C, h1, h2, h3⟩ := (dc_damped mp hla hle hra hre).absorbs
    refine ⟨κ, C, h1, h2, fun V x u hu => ?_⟩
    have := h3 V x ![u 0, u 0] (fun i => by fin_cases i <;> exact hu 0)
    unfold shuntP
    unfold dcP at this
    simp at this
    linarith

theorem one_damped {r l : ℝ} (hl : 0 < l) (hr : 0 < r) {W loss : (Fin 1 → ℝ) → ℝ} (hW : ∀ x, W x = 1 / 2 * l * x 0 ^ 2)
    (hloss : ∀ x, loss x = r * x 0 ^ 2) : Damped W loss oneP [0] Volts where
  cont := by
    have : W = fun x => 1 / 2 * l * x 0 ^ 2 := funext hW
    rw [this]; fun_prop
  nonneg x := by rw [hW]; positivity
  coercive := by
    refine ⟨1 / 2 * l, by positivity, fun x i _ => ?_⟩
    fin_cases i
    rw [hW]
    exact le_rfl
  absorbs := by
    refine ⟨r / l, 1 / (2 * r), by positivity, by positivity, fun V x u hu => ?_⟩
    have y0 := young (x := x 0) hr (hu 0)
    have r0 := rate_le (le_refl (r / l)) hl (x 0)
    rw [hW, hloss]
    unfold oneP
    linarith

theorem sync_damped (mp : SyncParams ℝ) (hd : 0 < mp.ld) (hq : 0 < mp.lq) (hr : 0 < mp.rs) :
    Damped (syncW mp) (syncLoss mp) syncP [0, 1] Volts where
  cont := by unfold syncW; fun_prop
  nonneg x := by unfold syncW; positivity
  coercive := by
    refine ⟨min (1 / 2 * mp.ld) (1 / 2 * mp.lq), lt_min (by positivity) (by positivity), fun x i hi => ?_⟩
    have h1 : min (1 / 2 * mp.ld) (1 / 2 * mp.lq) ≤ 1 / 2 * mp.ld := min_le_left _ _
    have h2 : min (1 / 2 * mp.ld) (1 / 2 * mp.lq) ≤ 1 / 2 * mp.lq := min_le_right _ _
    have p0 : 0 ≤ 1 / 2 * mp.ld * x 0 ^ 2 := by positivity
    have p1 : 0 ≤ 1 / 2 * mp.lq * x 1 ^ 2 := by positivity
    unfold syncW
    simp only [List.mem_cons, List.not_mem_nil, or_false] at hi
    rcases hi with rfl | rfl
    · have := mul_le_mul_of_nonneg_right h1 (sq_nonneg (x 0)); linarith
    · have := mul_le_mul_of_nonneg_right h2 (sq_nonneg (x 1)); linarith
  absorbs := by
    refine ⟨min (mp.rs / mp.ld) (mp.rs / mp.lq), 3 / (2 * mp.rs), lt_min (by positivity) (by positivity), by positivity,
      fun V x u hu => ?_⟩
    have y0 := young (x := x 0) hr (hu 0)
    have y1 := young (x := x 1) hr (hu 1)
    have r0 := rate_le (min_le_left (mp.rs / mp.ld) (mp.rs / mp.lq)) hd (x 0)
    have r1 := rate_le (min_le_right (mp.rs / mp.ld) (mp.rs / mp.lq)) hq (x 1)
    unfold syncP syncLoss syncW
    have e : 3 / (2 * mp.rs) * V ^ 2 = 3 / 2 * (1 / (2 * mp.rs) * V ^ 2 + 1 / (2 * mp.rs) * V ^ 2) := by field_simp; ring
    rw [e]
    nlinarith

/-- bounds of a positive definite quadratic form in two variables -/
theorem quad_lower {A B C : ℝ} (hA : 0 < A) (hC : 0 < C) (h : B ^ 2 < A * C) (x y : ℝ) :
    (A * C - B ^ 2) / (A + C) * (x ^ 2 + y ^ 2) ≤ A * x ^ 2 + 2 * B * x * y + C * y ^ 2 := by
  set μ := (A * C - B ^ 2) / (A + C) with hμ
  have hs : 0 < A + C := by linarith
  have e1 : (A - μ) * (A + C) = A ^ 2 + B ^ 2 := by rw [hμ]; field_simp; ring
  have e2 : μ * (A + C) = A * C - B ^ 2 := by rw [hμ]; field_simp
  have p : 0 < A - μ := by
    by_contra hn
    push Not at hn
    have : (A - μ) * (A + C) ≤ 0 := mul_nonpos_of_nonpos_of_nonneg hn hs.le
    nlinarith [sq_nonneg B, pow_pos hA 2]
  have e3 : (A - μ) * (C - μ) = B ^ 2 + μ ^ 2 := by nlinarith
  have key : 0 ≤ (A - μ) * ((A - μ) * x ^ 2 + 2 * B * x * y + (C - μ) * y ^ 2) := by
    have : (A - μ) * ((A - μ) * x ^ 2 + 2 * B * x * y + (C - μ) * y ^ 2) = ((A - μ) * x + B * y) ^ 2 + μ ^ 2 * y ^ 2 := by
      have : (A - μ) * ((A - μ) * x ^ 2 + 2 * B * x * y + (C - μ) * y ^ 2)
          = ((A - μ) * x + B * y) ^ 2 + ((A - μ) * (C - μ) - B ^ 2) * y ^ 2 := by ring
      rw [this, e3]; ring
    rw [this]; positivity
  have := nonneg_of_mul_nonneg_right key p
  linarith

theorem eesm_damped (mp : EesmParams ℝ) (hd : 0 < mp.ld) (hq : 0 < mp.lq) (he : 0 < mp.le)
    (hs : 3 / 2 * mp.lm ^ 2 < mp.ld * mp.le) (hr : 0 < mp.rs) (hre : 0 < mp.re) :
    Damped (eesmEnergy mp) (eesmLoss mp) eesmP [0, 1, 2] Volts := by
  have hdet : (3 / 4 * mp.lm) ^ 2 < (3 / 4 * mp.ld) * (1 / 2 * mp.le) := by nlinarith
  set μ := ((3 / 4 * mp.ld) * (1 / 2 * mp.le) - (3 / 4 * mp.lm) ^ 2) / (3 / 4 * mp.ld + 1 / 2 * mp.le) with hμ
  have hμ0 : 0 < μ := div_pos (by linarith) (by positivity)
  have hlow : ∀ x : Fin 4 → ℝ, μ * (x 0 ^ 2 + x 2 ^ 2) + 3 / 4 * mp.lq * x 1 ^ 2 ≤ eesmEnergy mp x := by
    intro x
    have := quad_lower (A := 3 / 4 * mp.ld) (B := 3 / 4 * mp.lm) (C := 1 / 2 * mp.le) (by positivity) (by positivity) hdet (x 0) (x 2)
    unfold eesmEnergy
    linarith
  have hup : ∀ x : Fin 4 → ℝ, eesmEnergy mp x ≤ (3 / 4 * mp.ld + 3 / 4 * |mp.lm|) * x 0 ^ 2 + 3 / 4 * mp.lq * x 1 ^ 2
      + (1 / 2 * mp.le + 3 / 4 * |mp.lm|) * x 2 ^ 2 := by
    intro x
    have h1 : 2 * (mp.lm * x 0 * x 2) ≤ |mp.lm| * (x 0 ^ 2 + x 2 ^ 2) := by
      have a1 : mp.lm * (x 0 * x 2) ≤ |mp.lm| * |x 0 * x 2| := by
        rw [← abs_mul]; exact le_abs_self _
      have a2 : 2 * |x 0 * x 2| ≤ x 0 ^ 2 + x 2 ^ 2 := by
        rw [abs_mul]; nlinarith [sq_nonneg (|x 0| - |x 2|), sq_abs (x 0), sq_abs (x 2)]
      nlinarith [abs_nonneg mp.lm]
    unfold eesmEnergy
    linarith
  refine ⟨by unfold eesmEnergy; fun_prop, fun x => ?_, ?_, ?_⟩
  · have : 0 ≤ μ * (x 0 ^ 2 + x 2 ^ 2) + 3 / 4 * mp.lq * x 1 ^ 2 := by positivity
    exact this.trans (hlow x)
  · refine ⟨min μ (3 / 4 * mp.lq), lt_min hμ0 (by positivity), fun x i hi => ?_⟩
    have h1 := min_le_left μ (3 / 4 * mp.lq)
    have h2 := min_le_right μ (3 / 4 * mp.lq)
    have p0 : 0 ≤ μ * x 0 ^ 2 := by positivity
    have p1 : 0 ≤ 3 / 4 * mp.lq * x 1 ^ 2 := by positivity
    have p2 : 0 ≤ μ * x 2 ^ 2 := by positivity
    refine le_trans ?_ (hlow x)
    simp only [List.mem_cons, List.not_mem_nil, or_false] at hi
    rcases hi with rfl | rfl | rfl
    · have := mul_le_mul_of_nonneg_right h1 (sq_nonneg (x 0)); linarith
    · have := mul_le_mul_of_nonneg_right h2 (sq_nonneg (x 1)); linarith
    · have := mul_le_mul_of_nonneg_right h1 (sq_nonneg (x 2)); linarith
  · set A := 3 / 4 * mp.ld + 3 / 4 * |mp.lm| with hA
    set B := 3 / 4 * mp.lq with hB
    set C := 1 / 2 * mp.le + 3 / 4 * |mp.lm| with hC
    have pA : 0 < A := by positivity
    have pB : 0 < B := by positivity
    have pC : 0 < C := by positivity
    set κ := min (3 / 4 * mp.rs / A) (min (3 / 4 * mp.rs / B) (1 / 2 * mp.re / C)) with hκ
    have k0 : κ * A ≤ 3 / 4 * mp.rs := by rw [← le_div_iff₀ pA]; exact min_le_left _ _
    have k1 : κ * B ≤ 3 / 4 * mp.rs := by
      rw [← le_div_iff₀ pB]; exact (min_le_right _ _).trans (min_le_left _ _)
    have k2 : κ * C ≤ 1 / 2 * mp.re := by
      rw [← le_div_iff₀ pC]; exact (min_le_right _ _).trans (min_le_right _ _)
    have hκ0 : 0 < κ := lt_min (by positivity) (lt_min (by positivity) (by positivity))
    refine ⟨κ, 3 / (2 * mp.rs) + 1 / (2 * mp.re), hκ0, by positivity, fun V x u hu => ?_⟩
    have y0 := young (x := x 0) hr (hu 0)
    have y1 := young (x := x 1) hr (hu 1)
    have y2 := young (x := x 2) hre (hu 2)
    have e : 3 / (2 * mp.rs) * V ^ 2 = 3 / 2 * (1 / (2 * mp.rs) * V ^ 2 + 1 / (2 * mp.rs) * V ^ 2) := by field_simp; ring
    have u0 := mul_le_mul_of_nonneg_left (hup x) hκ0.le
    have q0 := mul_le_mul_of_nonneg_right k0 (sq_nonneg (x 0))
    have q1 := mul_le_mul_of_nonneg_right k1 (sq_nonneg (x 1))
    have q2 := mul_le_mul_of_nonneg_right k2 (sq_nonneg (x 2))
    unfold eesmP eesmLoss
    rw [add_mul, e]
    linarith

theorem im_damped (mp : ImParams ℝ) (hls : 0 < mp.ls) (hlr : 0 < mp.lr) (hs : 0 < mp.sigma) (hr : 0 < mp.rs) (hrr : 0 < mp.rr) :
    Damped (imW mp) (imLoss mp) (dfimP mp) [0, 1, 2, 3] (fun V u => ∀ i k, |u i k| ≤ V) := by
  have hE := imW_eq mp hlr.ne'
  refine ⟨by unfold imW imStatorFlux imRotorCurrent; fun_prop, fun x => by rw [hE]; positivity, ?_, ?_⟩
  · refine ⟨min (3 / 4 * (mp.sigma * mp.ls)) (3 / 4 * (1 / mp.lr)), lt_min (by positivity) (by positivity), fun x i hi => ?_⟩
    have h1 := min_le_left (3 / 4 * (mp.sigma * mp.ls)) (3 / 4 * (1 / mp.lr))
    have h2 := min_le_right (3 / 4 * (mp.sigma * mp.ls)) (3 / 4 * (1 / mp.lr))
    have p0 : 0 ≤ 3 / 4 * (mp.sigma * mp.ls) * x 0 ^ 2 := by positivity
    have p1 : 0 ≤ 3 / 4 * (mp.sigma * mp.ls) * x 1 ^ 2 := by positivity
    have p2 : 0 ≤ 3 / 4 * (1 / mp.lr) * x 2 ^ 2 := by positivity
    have p3 : 0 ≤ 3 / 4 * (1 / mp.lr) * x 3 ^ 2 := by positivity
    rw [hE]
    simp only [List.mem_cons, List.not_mem_nil, or_false] at hi
    rcases hi with rfl | rfl | rfl | rfl
    · have := mul_le_mul_of_nonneg_right h1 (sq_nonneg (x 0)); linarith
    · have := mul_le_mul_of_nonneg_right h1 (sq_nonneg (x 1)); linarith
    · have := mul_le_mul_of_nonneg_right h2 (sq_nonneg (x 2)); linarith
    · have := mul_le_mul_of_nonneg_right h2 (sq_nonneg (x 3)); linarith
  · set A := mp.sigma * mp.ls + 2 * mp.lm ^ 2 / mp.lr with hA
    have pA : 0 < A := by positivity
    set κ := min (mp.rs / A) (mp.rr / (2 * mp.lr)) with hκ
    have k0 : κ * A ≤ mp.rs := by rw [← le_div_iff₀ pA]; exact min_le_left _ _
    have k1 : κ * (2 * mp.lr) ≤ mp.rr := by rw [← le_div_iff₀ (by positivity)]; exact min_le_right _ _
    have hκ0 : 0 < κ := lt_min (by positivity) (by positivity)
    refine ⟨κ, 3 / (2 * mp.rs) + 3 / (2 * mp.rr), hκ0, by positivity, fun V x u hu => ?_⟩
    have axis : ∀ i psi : ℝ, mp.sigma * mp.ls * i ^ 2 + 1 / mp.lr * psi ^ 2
        ≤ A * i ^ 2 + 2 * mp.lr * imRotorCurrent mp i psi ^ 2 := by
      intro i psi
      set r := imRotorCurrent mp i psi with hrdef
      have e : psi = mp.lr * r + mp.lm * i := by rw [hrdef]; unfold imRotorCurrent; field_simp; ring
      have h1 : psi ^ 2 ≤ 2 * (mp.lr * r) ^ 2 + 2 * (mp.lm * i) ^ 2 := by
        rw [e]; nlinarith [sq_nonneg (mp.lr * r - mp.lm * i)]
      have h2 : 1 / mp.lr * psi ^ 2 ≤ 1 / mp.lr * (2 * (mp.lr * r) ^ 2 + 2 * (mp.lm * i) ^ 2) :=
        mul_le_mul_of_nonneg_left h1 (by positivity)
      have e2 : 1 / mp.lr * (2 * (mp.lr * r) ^ 2 + 2 * (mp.lm * i) ^ 2) = 2 * mp.lr * r ^ 2 + 2 * mp.lm ^ 2 / mp.lr * i ^ 2 := by
        field_simp
      rw [hA, add_mul]
      linarith
    have a0 := axis (x 0) (x 2)
    have a1 := axis (x 1) (x 3)
    set r0 := imRotorCurrent mp (x 0) (x 2) with hr0
    set r1 := imRotorCurrent mp (x 1) (x 3) with hr1
    have y0 := young (x := x 0) hr (hu 0 0)
    have y1 := young (x := x 1) hr (hu 0 1)
    have y2 := young (x := r0) hrr (hu 1 0)
    have y3 := young (x := r1) hrr (hu 1 1)
    have e1 : 3 / (2 * mp.rs) * V ^ 2 = 3 / 2 * (1 / (2 * mp.rs) * V ^ 2 + 1 / (2 * mp.rs) * V ^ 2) := by field_simp; ring
    have e2 : 3 / (2 * mp.rr) * V ^ 2 = 3 / 2 * (1 / (2 * mp.rr) * V ^ 2 + 1 / (2 * mp.rr) * V ^ 2) := by field_simp; ring
    have w0 := mul_le_mul_of_nonneg_left a0 hκ0.le
    have w1 := mul_le_mul_of_nonneg_left a1 hκ0.le
    have q0 := mul_le_mul_of_nonneg_right k0 (sq_nonneg (x 0))
    have q1 := mul_le_mul_of_nonneg_right k0 (sq_nonneg (x 1))
    have q2 := mul_le_mul_of_nonneg_right k1 (sq_nonneg r0)
    have q3 := mul_le_mul_of_nonneg_right k1 (sq_nonneg r1)
    rw [hE]
    unfold dfimP imLoss
    rw [← hr0, ← hr1, add_mul, e1, e2]
    linarith

theorem scim_damped (mp : ImParams ℝ) (hls : 0 < mp.ls) (hlr : 0 < mp.lr) (hs : 0 < mp.sigma) (hr : 0 < mp.rs) (hrr : 0 < mp.rr) :
    Damped (imW mp) (imLoss mp) scimP [0, 1, 2, 3] (fun V u => 0 ≤ V ∧ Volts V u) where
  cont := (im_damped mp hls hlr hs hr hrr).cont
  nonneg := (im_damped mp hls hlr hs hr hrr).nonneg
  coercive := (im_damped mp hls hlr hs hr hrr).coercive
  absorbs := by
    obtain ⟨κ, C, h1, h2, h3⟩ := (im_damped mp hls hlr hs hr hrr).absorbs
    refine ⟨κ, C, h1, h2, fun V x u hu => ?_⟩
    have := h3 V x !![u 0, u 1; 0, 0] (fun i k => by
      fin_cases i <;> fin_cases k
      · exact hu.2 0
      · exact hu.2 1
      · simpa using hu.1
      · simpa using hu.1)
    unfold scimP
    unfold dfimP at this
    simp at this
    linarith

/-- C105 for DC drives: bounded voltages keep speed and currents within bounds, if the load torque grows with the speed.
Missing: other loads, see `c105_series_violated`. -/
theorem c105_dc_partial (mp : DcParams ℝ) (pe : PermExParams ℝ) (hla : 0 < mp.la) (hle : 0 < mp.le) (hra : 0 < mp.ra)
    (hre : 0 < mp.re) (pl : 0 < pe.la) (pr : 0 < pe.ra) :
    StaysBounded (dcTorque mp) (dcOde mp) [0, 1] Volts ∧ StaysBounded (dcTorque mp) (shuntOde mp) [0, 1] Volts ∧
    StaysBounded (seriesTorque mp) (seriesOde mp) [0] Volts ∧ StaysBounded (permExTorque pe) (permExOde pe) [0] Volts :=
  ⟨stays_bounded (extEx_balance mp hla.ne' hle.ne') (dc_damped mp hla hle hra hre),
   stays_bounded (shunt_balance mp hla.ne' hle.ne') (shunt_damped mp hla hle hra hre),
   stays_bounded (series_balance mp (add_pos hla hle).ne') (one_damped (add_pos hla hle) (add_pos hra hre) (fun _ => rfl) fun _ => rfl),
   stays_bounded (permEx_balance pe pl.ne') (one_damped pl pr (fun _ => rfl) fun _ => rfl)⟩

/-- C105 for drives with synchronous motors. -/
theorem c105_sync_partial (mp : SyncParams ℝ) (ee : EesmParams ℝ) (hd : 0 < mp.ld) (hq : 0 < mp.lq) (hr : 0 < mp.rs)
    (ed : 0 < ee.ld) (eq : 0 < ee.lq) (ek : ee.k ≠ 0) (el : 0 < ee.le) (es : 3 / 2 * ee.lm ^ 2 < ee.ld * ee.le) (er : 0 < ee.rs)
    (ere : 0 < ee.re) :
    StaysBounded (pmsmTorque mp) (syncOde (pmsmConstants mp)) [0, 1] Volts ∧
    StaysBounded (synrmTorque mp) (syncOde (synrmConstants mp)) [0, 1] Volts ∧
    StaysBounded (eesmTorque ee) (eesmOde ee) [0, 1, 2] Volts := by
  have hs : ee.sigma ≠ 0 := by
    have : ee.sigma = 1 - 3 / 2 * ee.lm ^ 2 / (ee.ld * ee.le) := by
      unfold EesmParams.sigma EesmParams.lM EesmParams.lE; field_simp
    rw [this]
    have : 3 / 2 * ee.lm ^ 2 / (ee.ld * ee.le) < 1 := by rw [div_lt_one (by positivity)]; exact es
    linarith
  exact ⟨stays_bounded (pmsm_balance mp hd.ne' hq.ne') (sync_damped mp hd hq hr),
   stays_bounded (synrm_balance mp hd.ne' hq.ne') (sync_damped mp hd hq hr),
   stays_bounded (eesm_balance ee ed.ne' eq.ne' ek el.ne' hs) (eesm_damped ee ed eq el es er ere)⟩

/-- C105 for drives with induction motors: also the rotor fluxes. -/
theorem c105_induction_partial (mp : ImParams ℝ) (hls : 0 < mp.ls) (hlr : 0 < mp.lr) (hs : 0 < mp.sigma) (hr : 0 < mp.rs)
    (hrr : 0 < mp.rr) :
    StaysBounded (imTorque mp) (scimOde mp) [0, 1, 2, 3] (fun V u => 0 ≤ V ∧ Volts V u) ∧
    StaysBounded (imTorque mp) (imOde mp) [0, 1, 2, 3] (fun V u => ∀ i k, |u i k| ≤ V) :=
  ⟨stays_bounded (scim_balance mp hls.ne' hlr.ne' hs.ne') (scim_damped mp hls hlr hs hr hrr),
   stays_bounded (dfim_balance mp hls.ne' hlr.ne' hs.ne') (im_damped mp hls hlr hs hr hrr)⟩

/-- C105: DC drives come to rest. -/
theorem c105_rest_dc (mp : DcParams ℝ) (pe : PermExParams ℝ) (hla : 0 < mp.la) (hle : 0 < mp.le) (hra : 0 < mp.ra)
    (hre : 0 < mp.re) (pl : 0 < pe.la) (pr : 0 < pe.ra) :
    ComesToRest (dcTorque mp) (dcOde mp) (dcW mp) 0 ∧ ComesToRest (dcTorque mp) (shuntOde mp) (dcW mp) 0 ∧
    ComesToRest (seriesTorque mp) (seriesOde mp) (seriesW mp) 0 ∧ ComesToRest (permExTorque pe) (permExOde pe) (permExW pe) 0 :=
  ⟨comes_to_rest (fun _ => by simp) (extEx_balance mp hla.ne' hle.ne') (dc_damped mp hla hle hra hre),
   comes_to_rest (fun _ => by simp) (shunt_balance mp hla.ne' hle.ne') (shunt_damped mp hla hle hra hre),
   comes_to_rest (inp := Volts) (fun _ => by simp) (series_balance mp (add_pos hla hle).ne')
     (one_damped (add_pos hla hle) (add_pos hra hre) (fun _ => rfl) fun _ => rfl),
   comes_to_rest (inp := Volts) (fun _ => by simp) (permEx_balance pe pl.ne') (one_damped pl pr (fun _ => rfl) fun _ => rfl)⟩

/-- C105: drives with three-phase motors come to rest. -/
theorem c105_rest_three_phase (mp : SyncParams ℝ) (im : ImParams ℝ) (hd : 0 < mp.ld) (hq : 0 < mp.lq) (hr : 0 < mp.rs)
    (hls : 0 < im.ls) (hlr : 0 < im.lr) (hs : 0 < im.sigma) (ir : 0 < im.rs) (irr : 0 < im.rr) :
    ComesToRest (pmsmTorque mp) (syncOde (pmsmConstants mp)) (syncW mp) 0 ∧
    ComesToRest (synrmTorque mp) (syncOde (synrmConstants mp)) (syncW mp) 0 ∧
    ComesToRest (imTorque im) (scimOde im) (imW im) 0 ∧ ComesToRest (imTorque im) (imOde im) (imW im) 0 :=
  ⟨comes_to_rest (fun _ => by simp) (pmsm_balance mp hd.ne' hq.ne') (sync_damped mp hd hq hr),
   comes_to_rest (fun _ => by simp) (synrm_balance mp hd.ne' hq.ne') (sync_damped mp hd hq hr),
   comes_to_rest ⟨le_rfl, fun _ => by simp⟩ (scim_balance im hls.ne' hlr.ne' hs.ne') (scim_damped im hls hlr hs ir irr),
   comes_to_rest (fun _ _ => by simp) (dfim_balance im hls.ne' hlr.ne' hs.ne') (im_damped im hls hlr hs ir irr)⟩

/-- C105: so do drives with an EESM. -/
theorem c105_rest_eesm (ee : EesmParams ℝ) (ed : 0 < ee.ld) (eq : 0 < ee.lq) (ek : ee.k ≠ 0) (el : 0 < ee.le)
    (es : 3 / 2 * ee.lm ^ 2 < ee.ld * ee.le) (er : 0 < ee.rs) (ere : 0 < ee.re) :
    ComesToRest (eesmTorque ee) (eesmOde ee) (eesmEnergy ee) 0 := by
  have hs : ee.sigma ≠ 0 := by
    have : ee.sigma = 1 - 3 / 2 * ee.lm ^ 2 / (ee.ld * ee.le) := by
      unfold EesmParams.sigma EesmParams.lM EesmParams.lE; field_simp
    rw [this]
    have : 3 / 2 * ee.lm ^ 2 / (ee.ld * ee.le) < 1 := by rw [div_lt_one (by positivity)]; exact es
    linarith
  exact comes_to_rest (fun _ => by simp) (eesm_balance ee ed.ne' eq.ne' ek el.ne' hs) (eesm_damped ee ed eq el es er ere)

/-- C105 is violated by an unloaded series motor: with a constant voltage its speed exceeds every bound. -/
theorem c105_series_violated (mp : DcParams ℝ) (hl : 0 < mp.lePrime) (hR : 0 < mp.ra + mp.re) (hL : 0 < mp.la + mp.le) {j tau : ℝ}
    {rs : List ℝ} (hp : PolyParams 0 0 0 j tau rs) (V : ℝ) (hV : 0 < V) (s : ℝ → Fin 2 → ℝ)
    (hs : Runs (systemEquation (polyMech 0 0 0 j tau rs) (seriesTorque mp) (seriesOde mp) 0 none) (fun _ => ![V]) s)
    (h0 : s 0 = ![0, 0]) (B : ℝ) : ∃ t, 0 ≤ t ∧ B < s t 0 := by
  by_contra hcon
  push Not at hcon
  have hJ := total_inertia hp
  set J := j + rs.sum with hJdef
  set R := mp.ra + mp.re with hRdef
  set L := mp.la + mp.le with hLdef
  have d0 : ∀ t, 0 ≤ t → HasDerivWithinAt (fun t => s t 0) (mp.lePrime * s t 1 ^ 2 / J) (Ici t) t := by
    intro t ht
    refine ((hs 0).2 t ht).congr_deriv ?_
    have e : (systemEquation (polyMech 0 0 0 j tau rs) (seriesTorque mp) (seriesOde mp) 0 none t (s t) ![V] : Fin 2 → ℝ) 0
        = (polyOf 0 0 0 j tau rs).mechanicalOde t (s t 0) (seriesTorque mp ![s t 1]) := rfl
    rw [e, Poly.mechanicalOde, c25_friction hp, (polyOf_fields (0 : ℝ) 0 0 tau rs j).2.2.2.2]
    rw [← hJdef]
    simp [seriesTorque, dcTorque, friction]
    ring
  have d1 : ∀ t, 0 ≤ t → HasDerivWithinAt (fun t => s t 1) ((-R * s t 1 - mp.lePrime * (s t 0 * s t 1) + V) / L) (Ici t) t := by
    intro t ht
    refine ((hs 1).2 t ht).congr_deriv ?_
    have e : (systemEquation (polyMech 0 0 0 j tau rs) (seriesTorque mp) (seriesOde mp) 0 none t (s t) ![V] : Fin 2 → ℝ) 1
        = seriesOde mp ![s t 1] ![V] (s t 0) 0 := rfl
    rw [e, seriesOde_eq, hRdef, hLdef]
    simp only [Matrix.cons_val_zero]
  have w0 : ∀ t, 0 ≤ t → 0 ≤ s t 0 := fun t ht => stays_nonneg (hs 0).1 d0 (by simp [h0]) (fun t _ _ => by positivity) t ht
  have i0 : ∀ t, 0 ≤ t → 0 ≤ s t 1 := by
    refine fun t ht => stays_nonneg (hs 1).1 d1 (by simp [h0]) (fun t ht hneg => ?_) t ht
    apply div_nonneg _ hL.le
    have := w0 t ht
    nlinarith [mul_nonneg hl.le (mul_nonneg this (by linarith : (0 : ℝ) ≤ -s t 1))]
  have i1 : ∀ t, 0 ≤ t → s t 1 ≤ V / R := by
    intro t ht
    have := stays_nonneg (f := fun t => V / R - s t 1) (continuousOn_const.sub (hs 1).1) (fun t ht => (d1 t ht).const_sub _)
      (by simp [h0]; positivity) (fun t ht hneg => ?_) t ht
    · linarith
    · rw [← neg_div]
      apply div_nonneg _ hL.le
      have h1 : V / R < s t 1 := by linarith
      rw [div_lt_iff₀ hR] at h1
      have := mul_nonneg hl.le (mul_nonneg (w0 t ht) (i0 t ht))
      linarith
  have hB : 0 ≤ B := (w0 0 le_rfl).trans (hcon 0 le_rfl)
  set A := R + mp.lePrime * B with hA
  have hA0 : 0 < A := by positivity
  -- the weight of the current and the growth of speed plus weighted current
  set lam := 2 * V * L * mp.lePrime / (A ^ 2 * J) with hlam
  have hlam0 : 0 < lam := by positivity
  set δ := lam * V / (2 * L) with hδ
  have hδ0 : 0 < δ := by positivity
  have grow : ∀ t, 0 ≤ t → δ * t ≤ s t 0 + lam * s t 1 := by
    intro t ht
    have := stays_nonneg (f := fun t => s t 0 + lam * s t 1 - δ * t)
      (((hs 0).1.add (continuousOn_const.mul (hs 1).1)).sub (by fun_prop))
      (fun t ht => ((d0 t ht).add ((d1 t ht).const_mul lam)).sub (((hasDerivAt_id t).const_mul δ).hasDerivWithinAt))
      (by simp [h0]) (fun t ht _ => ?_) t ht
    · linarith
    · set i := s t 1 with hi
      have hw : s t 0 * i ≤ B * i := mul_le_mul_of_nonneg_right (hcon t ht) (i0 t ht)
      have h1 : (V - A * i) / L ≤ (-R * i - mp.lePrime * (s t 0 * i) + V) / L := by
        apply div_le_div_of_nonneg_right _ hL.le
        have := mul_le_mul_of_nonneg_left hw hl.le
        rw [hA]
        linarith
      have h2 := mul_le_mul_of_nonneg_left h1 hlam0.le
      have h3 : 0 ≤ mp.lePrime / J * (i - V / A) ^ 2 := by positivity
      have h4 : mp.lePrime * i ^ 2 / J + lam * ((V - A * i) / L) - δ * 1 = mp.lePrime / J * (i - V / A) ^ 2 := by
        rw [hδ, hlam]
        field_simp
        ring
      linarith
  have hT : 0 ≤ (B + lam * (V / R) + 1) / δ := by positivity
  have h1 := grow _ hT
  have h2 := hcon _ hT
  have h3 := mul_le_mul_of_nonneg_left (i1 _ hT) hlam0.le
  have e : δ * ((B + lam * (V / R) + 1) / δ) = B + lam * (V / R) + 1 := by field_simp
  rw [e] at h1
  linarith

/-- The hypotheses are met: a drive with viscous friction at rest, with a voltage that is balanced by the torque of the load, and a
decaying current of a drive without torque. -/
example : Runs (systemEquation (m := 1) (polyMech 0 1 0 1 1 []) (permExTorque ⟨1, 1, 1⟩) (permExOde ⟨1, 1, 1⟩) 0 none) (fun _ => ![2])
    (fun _ => (![1, 1] : Fin 2 → ℝ)) := by
  have hp : PolyParams (0 : ℝ) 1 0 1 1 [] := ⟨le_rfl, zero_le_one, le_rfl, one_pos, one_pos, by simp⟩
  intro i
  refine ⟨continuousOn_const, fun t _ => ?_⟩
  refine (hasDerivWithinAt_const t _ _).congr_deriv ?_
  refine Fin.addCases (m := 1) (n := 1) (fun i => ?_) (fun i => ?_) i
  · have : i = 0 := Subsingleton.elim _ _
    subst this
    rw [systemEquation]
    simp only [Fin.append_left]
    simp [polyMech, Poly.mechanicalOde, c25_friction hp, permExTorque, friction]
  · have : i = 0 := Subsingleton.elim _ _
    subst this
    rw [systemEquation]
    simp only [Fin.append_right]
    simp [permExOde_eq]
    norm_num

example : Runs (systemEquation (m := 1) (polyMech 0 1 0 1 1 []) (permExTorque ⟨1, 1, 0⟩) (permExOde ⟨1, 1, 0⟩) 0 none) (fun _ => 0)
    (fun t => (![Real.exp (-t), 3 * Real.exp (-t)] : Fin 2 → ℝ)) := by
  have hp : PolyParams (0 : ℝ) 1 0 1 1 [] := ⟨le_rfl, zero_le_one, le_rfl, one_pos, one_pos, by simp⟩
  have hexp : ∀ t : ℝ, HasDerivAt (fun t => Real.exp (-t)) (-Real.exp (-t)) t := fun t => by
    simpa using (hasDerivAt_id t).neg.exp
  intro i
  refine Fin.addCases (m := 1) (n := 1) (fun i => ?_) (fun i => ?_) i
  · have : i = 0 := Subsingleton.elim _ _
    subst this
    refine ⟨by simp; fun_prop, fun t _ => ?_⟩
    refine (hexp t).hasDerivWithinAt.congr_deriv ?_
    rw [systemEquation]
    simp only [Fin.append_left]
    simp [polyMech, Poly.mechanicalOde, c25_friction hp, permExTorque, friction, (polyOf_fields (0 : ℝ) 1 0 1 [] 1).2.2.2.2]
  · have : i = 0 := Subsingleton.elim _ _
    subst this
    refine ⟨by simp; fun_prop, fun t _ => ?_⟩
    refine ((hexp t).const_mul 3).hasDerivWithinAt.congr_deriv ?_
    rw [systemEquation]
    simp only [Fin.append_right]
    simp [permExOde_eq]

end

end GEM.Props
