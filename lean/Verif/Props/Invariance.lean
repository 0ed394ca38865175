import Mathlib.Analysis.Calculus.MeanValue
import Mathlib.Analysis.SpecialFunctions.ExpDeriv
import Verif.Model.StateSpace
import Verif.Props.Systems

/-!
# C98: the announced signs of the states of DC systems
-/

set_option linter.unusedSectionVars false

namespace GEM.Props

open GEM GEM.Motor GEM.Load GEM.Sys Set Filter Topology

noncomputable section

/-- `s` is a motion from the time 0 on under the input `u`: continuous, with the right-hand side as derivative to the right, so
that `u` may jump (at the ends of control intervals and at switching times within them). -/
def Runs {k : ℕ} {U : Type} (rhs : ℝ → (Fin k → ℝ) → U → Fin k → ℝ) (u : ℝ → U) (s : ℝ → Fin k → ℝ) : Prop :=
  ∀ i, ContinuousOn (fun t => s t i) (Ici 0) ∧ ∀ t, 0 ≤ t → HasDerivWithinAt (fun t => s t i) (rhs t (s t) (u t) i) (Ici t) t

/-- States announced to be non-negative are so. -/
def Respects (low : List (String × ℝ)) (value : String → ℝ) : Prop := ∀ e ∈ low, e.2 = 0 → 0 ≤ value e.1

/-- a function that starts non-negative and does not fall where it is negative stays non-negative -/
theorem stays_nonneg {f f' : ℝ → ℝ} (hc : ContinuousOn f (Ici 0)) (hd : ∀ t, 0 ≤ t → HasDerivWithinAt f (f' t) (Ici t) t)
    (h0 : 0 ≤ f 0) (hb : ∀ t, 0 ≤ t → f t < 0 → 0 ≤ f' t) (t : ℝ) (ht : 0 ≤ t) : 0 ≤ f t := by
  by_contra hneg
  push Not at hneg
  have key : ∀ ε : ℝ, 0 < ε → -f t ≤ ε * (1 + t) := by
    intro ε hε
    refine image_le_of_deriv_right_lt_deriv_boundary' (f := fun t => -f t) (f' := fun t => -f' t) (a := 0) (b := t)
      (B := fun x => ε * (1 + x)) (B' := fun _ => ε) (hc.mono fun x hx => hx.1).neg (fun x hx => (hd x hx.1).neg) ?_ ?_ ?_ ?_
      ⟨ht, le_rfl⟩
    · simp
      linarith
    · fun_prop
    · intro x _
      have : HasDerivAt (fun x : ℝ => ε * (1 + x)) (ε * 1) x := ((hasDerivAt_id x).const_add 1).const_mul ε
      rw [mul_one] at this
      exact this.hasDerivWithinAt
    · intro x hx he
      have he : -f x = ε * (1 + x) := he
      have : f x < 0 := by
        have : 0 < ε * (1 + x) := mul_pos hε (by linarith [hx.1])
        linarith
      have := hb x hx.1 this
      show -f' x < ε
      linarith
  have h1 : (0 : ℝ) < 1 + t := by linarith
  have := key (-f t / (2 * (1 + t))) (div_pos (by linarith) (by linarith))
  have e : -f t / (2 * (1 + t)) * (1 + t) = -f t / 2 := by
    field_simp
  rw [e] at this
  linarith

/-- a function that starts at 0 with negative derivative is negative soon -/
theorem soon_neg {f : ℝ → ℝ} {d : ℝ} (hd : HasDerivWithinAt f d (Ici 0) 0) (h0 : f 0 = 0) (hneg : d < 0) (ε : ℝ) (hε : 0 < ε) :
    ∃ t, 0 < t ∧ t < ε ∧ f t < 0 := by
  have h1 : Tendsto (slope f 0) (𝓝[Ioi 0] 0) (𝓝 d) :=
    (hasDerivWithinAt_iff_tendsto_slope' (by simp)).1 (hd.mono Ioi_subset_Ici_self)
  have h2 : ∀ᶠ t in 𝓝[Ioi 0] (0 : ℝ), slope f 0 t < 0 := h1.eventually (gt_mem_nhds hneg)
  have h3 : ∀ᶠ t in 𝓝[Ioi 0] (0 : ℝ), t ∈ Ioo 0 ε := Ioo_mem_nhdsGT hε
  obtain ⟨t, ht, hm⟩ := (h2.and h3).exists
  refine ⟨t, hm.1, hm.2, ?_⟩
  rw [slope_def_field, h0, sub_zero, sub_zero] at ht
  by_contra hf
  push Not at hf
  exact absurd ht (not_lt.mpr (div_nonneg hf hm.1.le))

/-- a polynomial load as a mechanical ODE with one state -/
def polyMech (a b c j tau : ℝ) (rs : List ℝ) : ℝ → (Fin 1 → ℝ) → ℝ → Fin 1 → ℝ :=
  fun t l T => ![(polyOf a b c j tau rs).mechanicalOde t (l 0) T]

/-- a load with constant speed -/
def constMech : ℝ → (Fin 1 → ℝ) → ℝ → Fin 1 → ℝ := fun t l T => ![constOde t (l 0) T]

/-- the values of a series motor system -/
def seriesValue (mp : DcParams ℝ) (u : Fin 1 → ℝ) (s : Fin 2 → ℝ) (name : String) : ℝ :=
  if name = "omega" then s 0 else if name = "torque" then seriesTorque mp ![s 1] else if name = "i" then s 1 else u 0

/-- the values of a permanently excited motor system -/
def permExValue (mp : PermExParams ℝ) (u : Fin 1 → ℝ) (s : Fin 2 → ℝ) (name : String) : ℝ :=
  if name = "omega" then s 0 else if name = "torque" then permExTorque mp ![s 1] else if name = "i" then s 1 else u 0

/-- the values of a shunt motor system -/
def shuntValue (mp : DcParams ℝ) (u : Fin 1 → ℝ) (s : Fin 3 → ℝ) (name : String) : ℝ :=
  if name = "omega" then s 0 else if name = "torque" then dcTorque mp ![s 1, s 2] else if name = "i_a" then s 1
  else if name = "i_e" then s 2 else u 0

theorem poly_pushes {a b c j tau : ℝ} {rs : List ℝ} (h : PolyParams a b c j tau rs) (t w T : ℝ) (hw : w < 0) (hT : 0 ≤ T) :
    0 ≤ (polyOf a b c j tau rs).mechanicalOde t w T := by
  have h1 := c25_opposes h w
  have hj := (polyOf_ok h).j
  unfold Poly.mechanicalOde
  apply div_nonneg _ hj.le
  have : (polyOf a b c j tau rs).staticLoad w ≤ 0 := by
    by_contra hc
    push Not at hc
    exact absurd h1 (not_le.mpr (mul_neg_of_neg_of_pos hw hc))
  linarith

/-- C98 for the series motor with a polynomial static load: in every motion from a state in the announced space, under every
input the converter can give, the speed and the torque are never negative; neither is the current, if it is announced so. -/
theorem c98_series (mp : DcParams ℝ) (hl : 0 ≤ mp.lePrime) (hr : 0 ≤ mp.ra + mp.re) (hL : 0 < mp.la + mp.le)
    {a b c j tau : ℝ} {rs : List ℝ} (h : PolyParams a b c j tau rs) (cur volt : ℕ → ℝ) (hcv : cur 0 ≠ -1 → volt 0 ≠ -1)
    (u : ℝ → Fin 1 → ℝ) (hu : volt 0 ≠ -1 → ∀ t, 0 ≤ t → 0 ≤ u t 0) (s : ℝ → Fin 2 → ℝ)
    (hs : Runs (systemEquation (polyMech a b c j tau rs) (seriesTorque mp) (seriesOde mp) 0 none) u s)
    (h0 : Respects (Space.series cur volt) (seriesValue mp (u 0) (s 0))) (t : ℝ) (ht : 0 ≤ t) :
    Respects (Space.series cur volt) (seriesValue mp (u t) (s t)) := by
  have hT : ∀ i : ℝ, 0 ≤ seriesTorque mp ![i] := by
    intro i
    have : seriesTorque mp ![i] = mp.lePrime * (i * i) := by
      simp [seriesTorque, dcTorque]
      ring
    rw [this]
    exact mul_nonneg hl (mul_self_nonneg i)
  have hw : ∀ t, 0 ≤ t → 0 ≤ s t 0 := by
    refine fun t ht => stays_nonneg (hs 0).1 (hs 0).2 ?_ ?_ t ht
    · exact h0 ("omega", 0) (by simp [Space.series]) rfl
    · intro t ht hneg
      have e : (systemEquation (polyMech a b c j tau rs) (seriesTorque mp) (seriesOde mp) 0 none t (s t) (u t) : Fin 2 → ℝ) 0
          = (polyOf a b c j tau rs).mechanicalOde t (s t 0) (seriesTorque mp fun i => s t (Fin.natAdd 1 i)) := by
        rfl
      rw [e]
      refine poly_pushes h t _ _ hneg ?_
      exact hT (s t 1)
  intro e he hz
  simp only [Space.series, List.mem_cons, List.not_mem_nil, or_false] at he
  rcases he with rfl | rfl | rfl | rfl
  · exact hw t ht
  · exact hT _
  · have hcur : cur 0 ≠ -1 := by
      intro hc
      simp [Space.signed, hc] at hz
    show 0 ≤ s t 1
    refine stays_nonneg (hs 1).1 (hs 1).2 ?_ ?_ t ht
    · exact h0 ("i", Space.signed (cur 0)) (by simp [Space.series]) hz
    · intro t ht hneg
      have e : (systemEquation (polyMech a b c j tau rs) (seriesTorque mp) (seriesOde mp) 0 none t (s t) (u t) : Fin 2 → ℝ) 1
          = seriesOde mp ![s t 1] (u t) (s t 0) 0 := by
        rfl
      rw [e, seriesOde_eq]
      have h1 := hu (hcv hcur) t ht
      have h2 := mul_nonneg hl (hw t ht)
      have h3 : 0 ≤ (mp.ra + mp.re + mp.lePrime * s t 0) * -(s t 1) := mul_nonneg (by linarith) (by linarith)
      simp
      apply div_nonneg _ hL.le
      nlinarith
  · have hv : volt 0 ≠ -1 := by
      intro hc
      simp [Space.signed, hc] at hz
    exact hu hv t ht

/-- the exciting current of shunt motors (with every load) is never negative if the voltage is not -/
theorem c98_excitation (mp : DcParams ℝ) (hr : 0 ≤ mp.re) (hL : 0 < mp.le) (mech : ℝ → (Fin 1 → ℝ) → ℝ → Fin 1 → ℝ)
    (u : ℝ → Fin 1 → ℝ) (hu : ∀ t, 0 ≤ t → 0 ≤ u t 0) (s : ℝ → Fin 3 → ℝ)
    (hs : Runs (systemEquation (m := 2) mech (dcTorque mp) (shuntOde mp) 0 none) u s) (h0 : 0 ≤ s 0 2) (t : ℝ) (ht : 0 ≤ t) :
    0 ≤ s t 2 := by
  refine stays_nonneg (hs 2).1 (hs 2).2 h0 ?_ t ht
  intro t ht hneg
  have e : (systemEquation (m := 2) mech (dcTorque mp) (shuntOde mp) 0 none t (s t) (u t) : Fin 3 → ℝ) 2
      = shuntOde mp ![s t 1, s t 2] (u t) (s t 0) 1 := rfl
  rw [e, shuntOde, dcOde_eq]
  have h1 := hu t ht
  have h3 : 0 ≤ mp.re * -(s t 2) := mul_nonneg hr (by linarith)
  simp
  apply div_nonneg _ hL.le
  nlinarith

/-- C98 is violated by the permanently excited motor with a one-quadrant converter, which announces a non-negative current: with
the switch open (voltage 0, which the converter gives for current 0) the current of every turning motor becomes negative at
once, whatever the load. -/
theorem c98_permEx_current_violated (mp : PermExParams ℝ) (hpsi : 0 < mp.psiE) (hL : 0 < mp.la)
    (mech : ℝ → (Fin 1 → ℝ) → ℝ → Fin 1 → ℝ) (u : ℝ → Fin 1 → ℝ) (hu : u 0 0 = 0) (s : ℝ → Fin 2 → ℝ)
    (hs : Runs (systemEquation mech (permExTorque mp) (permExOde mp) 0 none) u s) (hw : 0 < s 0 0) (hi : s 0 1 = 0) (ε : ℝ)
    (hε : 0 < ε) :
    Respects (Space.permEx (fun _ => 0) (fun _ => 0)) (permExValue mp (u 0) (s 0)) ∧
    ∃ t, 0 < t ∧ t < ε ∧ ¬ Respects (Space.permEx (fun _ => 0) (fun _ => 0)) (permExValue mp (u t) (s t)) := by
  constructor
  · intro e he _
    simp only [Space.permEx, List.mem_cons, List.not_mem_nil, or_false] at he
    rcases he with rfl | rfl | rfl | rfl
    · exact hw.le
    · simp [permExValue, permExTorque, hi]
    · simp [permExValue, hi]
    · simp [permExValue, hu]
  · have e : (systemEquation mech (permExTorque mp) (permExOde mp) 0 none 0 (s 0) (u 0) : Fin 2 → ℝ) 1
        = permExOde mp ![s 0 1] (u 0) (s 0 0) 0 := rfl
    obtain ⟨t, h1, h2, h3⟩ := soon_neg ((hs 1).2 0 le_rfl) hi (by
      rw [e, permExOde_eq]
      simp [hu, hi]
      exact div_neg_of_neg_of_pos (by have := mul_pos hpsi hw; linarith) hL) ε hε
    refine ⟨t, h1, h2, fun hr => ?_⟩
    have := hr ("i", Space.signed 0) (by simp [Space.permEx]) (by simp [Space.signed])
    exact absurd h3 (not_lt.mpr (by simpa [permExValue] using this))

/-- C98 is violated by the permanently excited motor with a two-quadrant converter, which announces a non-negative speed: from
every state at standstill with a negative (announced) current the speed becomes negative at once, whatever the voltage. -/
theorem c98_permEx_speed_violated (mp : PermExParams ℝ) (hpsi : 0 < mp.psiE) {a b c j tau : ℝ} {rs : List ℝ}
    (h : PolyParams a b c j tau rs) (u : ℝ → Fin 1 → ℝ) (hu : ∀ t, 0 ≤ t → 0 ≤ u t 0) (s : ℝ → Fin 2 → ℝ)
    (hs : Runs (systemEquation (polyMech a b c j tau rs) (permExTorque mp) (permExOde mp) 0 none) u s) (hw : s 0 0 = 0)
    (hi : s 0 1 < 0) (ε : ℝ) (hε : 0 < ε) :
    Respects (Space.permEx (fun _ => -1) (fun _ => 0)) (permExValue mp (u 0) (s 0)) ∧
    ∃ t, 0 < t ∧ t < ε ∧ ¬ Respects (Space.permEx (fun _ => -1) (fun _ => 0)) (permExValue mp (u t) (s t)) := by
  constructor
  · intro e he hz
    simp only [Space.permEx, List.mem_cons, List.not_mem_nil, or_false] at he
    rcases he with rfl | rfl | rfl | rfl
    · simp [permExValue, hw]
    · simp [Space.signed] at hz
    · simp [Space.signed] at hz
    · simpa [permExValue] using hu 0 le_rfl
  · have e : (systemEquation (polyMech a b c j tau rs) (permExTorque mp) (permExOde mp) 0 none 0 (s 0) (u 0) : Fin 2 → ℝ) 0
        = (polyOf a b c j tau rs).mechanicalOde 0 (s 0 0) (mp.psiE * s 0 1) := rfl
    obtain ⟨t, h1, h2, h3⟩ := soon_neg ((hs 0).2 0 le_rfl) hw (by
      rw [e, hw, Poly.mechanicalOde, (c25_odd h 0).2, sub_zero]
      exact div_neg_of_neg_of_pos (mul_neg_of_pos_of_neg hpsi hi) (polyOf_ok h).j) ε hε
    refine ⟨t, h1, h2, fun hr => ?_⟩
    have := hr ("omega", Space.signed 0) (by simp [Space.permEx]) (by simp [Space.signed])
    exact absurd h3 (not_lt.mpr (by simpa [permExValue] using this))

/-- C98 is violated by the shunt motor, whose speed is announced to be non-negative with every converter: from every state at
standstill with exciting and armature current of opposite sign the speed becomes negative at once, whatever the voltage. -/
theorem c98_shunt_speed_violated (mp : DcParams ℝ) (hl : 0 < mp.lePrime) {a b c j tau : ℝ} {rs : List ℝ}
    (h : PolyParams a b c j tau rs) (u : ℝ → Fin 1 → ℝ) (volt : ℕ → ℝ) (hu : volt 0 ≠ -1 → ∀ t, 0 ≤ t → 0 ≤ u t 0)
    (s : ℝ → Fin 3 → ℝ) (hs : Runs (systemEquation (m := 2) (polyMech a b c j tau rs) (dcTorque mp) (shuntOde mp) 0 none) u s)
    (hw : s 0 0 = 0) (hi : s 0 1 * s 0 2 < 0) (ε : ℝ) (hε : 0 < ε) :
    Respects (Space.shunt (fun _ => -1) volt) (shuntValue mp (u 0) (s 0)) ∧
    ∃ t, 0 < t ∧ t < ε ∧ ¬ Respects (Space.shunt (fun _ => -1) volt) (shuntValue mp (u t) (s t)) := by
  constructor
  · intro e he hz
    simp only [Space.shunt, List.mem_cons, List.not_mem_nil, or_false] at he
    rcases he with rfl | rfl | rfl | rfl | rfl
    · simp [shuntValue, hw]
    · simp [Space.signed] at hz
    · simp [Space.signed] at hz
    · simp [Space.signed] at hz
    · refine (hu ?_ 0 le_rfl)
      intro hc
      simp [Space.signed, hc] at hz
  · have e : (systemEquation (m := 2) (polyMech a b c j tau rs) (dcTorque mp) (shuntOde mp) 0 none 0 (s 0) (u 0) : Fin 3 → ℝ) 0
        = (polyOf a b c j tau rs).mechanicalOde 0 (s 0 0) (mp.lePrime * s 0 1 * s 0 2) := rfl
    obtain ⟨t, h1, h2, h3⟩ := soon_neg ((hs 0).2 0 le_rfl) hw (by
      rw [e, hw, Poly.mechanicalOde, (c25_odd h 0).2, sub_zero, mul_assoc]
      exact div_neg_of_neg_of_pos (mul_neg_of_pos_of_neg hl hi) (polyOf_ok h).j) ε hε
    refine ⟨t, h1, h2, fun hr => ?_⟩
    have := hr ("omega", 0) (by simp [Space.shunt]) rfl
    exact absurd h3 (not_lt.mpr (by simpa [shuntValue] using this))

/-- the values of an externally excited motor system -/
def extExValue (mp : DcParams ℝ) (u : Fin 2 → ℝ) (s : Fin 3 → ℝ) (name : String) : ℝ :=
  if name = "omega" then s 0 else if name = "torque" then dcTorque mp ![s 1, s 2] else if name = "i_a" then s 1
  else if name = "i_e" then s 2 else if name = "u_a" then u 0 else u 1

/-- C98 is violated by the externally excited motor with two one-quadrant converters, which announces a non-negative armature
current: with the armature's switch open the current of every turning and excited motor becomes negative at once, whatever
the load and the exciting voltage. -/
theorem c98_extEx_violated (mp : DcParams ℝ) (hl : 0 < mp.lePrime) (hL : 0 < mp.la)
    (mech : ℝ → (Fin 1 → ℝ) → ℝ → Fin 1 → ℝ) (u : ℝ → Fin 2 → ℝ) (hu : u 0 0 = 0) (hue : 0 ≤ u 0 1) (s : ℝ → Fin 3 → ℝ)
    (hs : Runs (systemEquation (m := 2) mech (dcTorque mp) (dcOde mp) 0 none) u s) (hw : 0 < s 0 0) (hi : s 0 1 = 0)
    (he : 0 < s 0 2) (ε : ℝ) (hε : 0 < ε) :
    Respects (Space.extEx (fun _ => 0) (fun _ => 0)) (extExValue mp (u 0) (s 0)) ∧
    ∃ t, 0 < t ∧ t < ε ∧ ¬ Respects (Space.extEx (fun _ => 0) (fun _ => 0)) (extExValue mp (u t) (s t)) := by
  constructor
  · intro e hm _
    simp only [Space.extEx, List.mem_cons, List.not_mem_nil, or_false] at hm
    rcases hm with rfl | rfl | rfl | rfl | rfl | rfl
    · exact hw.le
    · simp [extExValue, dcTorque, hi]
    · simp [extExValue, hi]
    · exact he.le
    · simp [extExValue, hu]
    · simpa [extExValue] using hue
  · have e : (systemEquation (m := 2) mech (dcTorque mp) (dcOde mp) 0 none 0 (s 0) (u 0) : Fin 3 → ℝ) 1
        = dcOde mp ![s 0 1, s 0 2] (u 0) (s 0 0) 0 := rfl
    obtain ⟨t, h1, h2, h3⟩ := soon_neg ((hs 1).2 0 le_rfl) hi (by
      rw [e, dcOde_eq]
      simp [hu, hi]
      exact div_neg_of_neg_of_pos (by have := mul_pos (mul_pos hl hw) he; nlinarith) hL) ε hε
    refine ⟨t, h1, h2, fun hr => ?_⟩
    have := hr ("i_a", Space.signed 0) (by simp [Space.extEx]) (by simp [Space.signed])
    exact absurd h3 (not_lt.mpr (by simpa [extExValue] using this))

/-- C98 is violated by every load that fixes a negative speed: the series motor announces a non-negative one, which then no state
of the motion has. -/
theorem c98_constant_violated (mp : DcParams ℝ) (cur volt : ℕ → ℝ) (u : ℝ → Fin 1 → ℝ) (s : ℝ → Fin 2 → ℝ)
    (hs : Runs (systemEquation constMech (seriesTorque mp) (seriesOde mp) 0 none) u s) (hw : s 0 0 < 0) (t : ℝ) (ht : 0 ≤ t) :
    ¬ Respects (Space.series cur volt) (seriesValue mp (u t) (s t)) := by
  intro hr
  have h1 : 0 ≤ s t 0 := by simpa [seriesValue] using hr ("omega", 0) (by simp [Space.series]) rfl
  have e : ∀ x, (systemEquation constMech (seriesTorque mp) (seriesOde mp) 0 none x (s x) (u x) : Fin 2 → ℝ) 0 = 0 := fun _ => rfl
  have h2 := constant_of_has_deriv_right_zero (f := fun x => s x 0) (a := 0) (b := t)
    ((hs 0).1.mono fun x hx => hx.1) (fun x hx => by
      have := (hs 0).2 x hx.1
      rwa [e] at this) t ⟨ht, le_rfl⟩
  have h2 : s t 0 = s 0 0 := h2
  linarith

/-- a series motor at 2 V turns steadily with speed 1 and current 1 -/
example : Runs (systemEquation (polyMech 0 1 0 1 1 []) (seriesTorque ⟨1, 0, 1, 1, 0⟩) (seriesOde ⟨1, 0, 1, 1, 0⟩) 0 none)
    (fun _ => ![2]) (fun _ => ![1, 1]) := by
  intro i
  refine ⟨continuousOn_const, fun t _ => ?_⟩
  have : (systemEquation (polyMech 0 1 0 1 1 []) (seriesTorque ⟨1, 0, 1, 1, 0⟩) (seriesOde ⟨1, 0, 1, 1, 0⟩) 0 none t ![1, 1]
      ![2] : Fin 2 → ℝ) i = 0 := by
    fin_cases i
    · show (polyOf (0 : ℝ) 1 0 1 1 []).mechanicalOde t 1 (seriesTorque ⟨1, 0, 1, 1, 0⟩ ![1]) = 0
      simp [Poly.mechanicalOde, polyOf, Poly.new, Poly.staticLoad, sign, seriesTorque, dcTorque]
    · show seriesOde (⟨1, 0, 1, 1, 0⟩ : DcParams ℝ) ![1] ![2] 1 0 = 0
      rw [seriesOde_eq]
      norm_num
  rw [this]
  exact hasDerivWithinAt_const ..

/-- a permanently excited motor at speed 1 with open switch: the current is `exp (-t) - 1` -/
example : Runs (systemEquation constMech (permExTorque ⟨1, 1, 1⟩) (permExOde ⟨1, 1, 1⟩) 0 none) (fun _ => ![0])
    (fun t => ![1, Real.exp (-t) - 1]) := by
  intro i
  fin_cases i
  · refine ⟨continuousOn_const, fun t _ => ?_⟩
    exact hasDerivWithinAt_const ..
  · refine ⟨by fun_prop, fun t _ => ?_⟩
    have e : (systemEquation constMech (permExTorque ⟨1, 1, 1⟩) (permExOde ⟨1, 1, 1⟩) 0 none t ![1, Real.exp (-t) - 1] ![0]
        : Fin 2 → ℝ) 1 = Real.exp (-t) * -1 := by
      show permExOde (⟨1, 1, 1⟩ : PermExParams ℝ) ![Real.exp (-t) - 1] ![0] 1 0 = _
      rw [permExOde_eq]
      simp
      ring
    exact HasDerivWithinAt.congr_deriv (((hasDerivAt_neg t).exp).sub_const 1).hasDerivWithinAt e.symm

end

end GEM.Props
