import Verif.Props.ClassicTorque
import Verif.Props.ClassicMake
import Verif.Props.Restart

/-!
# C146: what a `reset` leaves of a cascaded field oriented controller, the torque it asks for, and the range of its flux correction
-/

set_option linter.unusedSectionVars false

namespace GEM.Props

noncomputable section

open GEM GEM.Classic GEM.Motor GEM.Ops

/-! ## Reset -/

/-- a controller with these gains that a `reset` makes new -/
def Born (g : Gains ℝ) (x : Cont ℝ) : Prop := Has g x ∧ (g.d = none → x.eOld = 0)

theorem born_new (g : Gains ℝ) : Born g g.new := ⟨⟨rfl, rfl, rfl, rfl⟩, fun _ => rfl⟩

theorem born_control {g : Gains ℝ} {x : Cont ℝ} (h : Born g x) (s r : ℝ) : Born g (x.control s r).1 := by
  obtain ⟨⟨h1, h2, h3, h4⟩, h5⟩ := h
  unfold Cont.control
  cases hd : x.d with
  | none => exact ⟨⟨h1, h2, h3, h4⟩, h5⟩
  | some d => exact ⟨⟨h1, h2, hd.symm.trans h3, h4⟩, fun hn => by rw [hn, hd] at h3; cases h3⟩

theorem born_integrate {g : Gains ℝ} {x : Cont ℝ} (h : Born g x) (s r : ℝ) : Born g (x.integrate s r) := h

theorem born_reset {g : Gains ℝ} {x : Cont ℝ} (h : Born g x) : x.reset = g.new := by
  obtain ⟨⟨h1, h2, h3, h4⟩, h5⟩ := h
  obtain ⟨p, i, d, t, n, e⟩ := x
  simp only at h1 h2 h3 h4
  subst h1 h2 h3 h4
  cases hd : g.d with
  | none =>
    have := h5 hd
    simp only at this
    simp [Cont.reset, Gains.new, Cont.new, hd, this]
  | some d => simp [Cont.reset, Gains.new, Cont.new, hd]

theorem overlaid_eq (o : Overlaid) (y : Cont ℝ) (s : ℕ → ℝ) (r : ℝ) :
    o.control (.cont y) s r = if 85 / 100 * o.low ≤ (y.control (s o.omega) r).2 ∧ (y.control (s o.omega) r).2 ≤ 85 / 100 * o.high
        then (.cont ((y.control (s o.omega) r).1.integrate (s o.omega) r), (y.control (s o.omega) r).2)
        else (.cont (y.control (s o.omega) r).1,
          clip (y.control (s o.omega) r).2 (o.nominal / o.limit * o.low) (o.nominal / o.limit * o.high)) := rfl

theorem born_overlaid (o : Overlaid) {g : Gains ℝ} {y : Cont ℝ} (h : Born g y) (s : ℕ → ℝ) (r : ℝ) : ∃ y', (o.control (.cont y) s r).1 = .cont y' ∧ Born g y' := by
  rw [overlaid_eq]
  split_ifs
  · exact ⟨_, rfl, born_integrate (born_control h _ _) _ _⟩
  · exact ⟨_, rfl, born_control h _ _⟩

/-- A conversion of torques whose `reset` removes every trace of the past that could be seen in its answers. -/
structure ForgetsPast {θ : Type} (conv : Conversion θ) (R : θ → θ → Prop) : Prop where
  refl : ∀ t, R t t
  reset : ∀ t t', R (conv.reset t) (conv.reset t')
  control : ∀ t t', R t t' → ∀ s T, R (conv.control t s T).1 (conv.control t' s T).1 ∧ (conv.control t s T).2 = (conv.control t' s T).2

/-- the actions of a cascaded field oriented controller -/
def cfocActions {θ : Type} (c : Foc) (task : Task) (o : Overlaid) (conv : Conversion θ) (refD : ℕ) :
    CascadedFoc (Cont ℝ × Cont ℝ) θ → List (Asked ℝ) → List (Fin 3 → ℝ)
  | _, [] => []
  | st, .control s r :: l => (c.cascaded task o conv refD st s r).2 :: cfocActions c task o conv refD (c.cascaded task o conv refD st s r).1 l
  | st, .reset :: l => cfocActions c task o conv refD (cascadedFocReset focReset task conv st) l

section

variable {θ : Type} (c : Foc) (task : Task) (o : Overlaid) (conv : Conversion θ) (refD : ℕ) (g e w : Gains ℝ) (t0 : θ)

/-- the states a new controller can get into -/
def Reached (st : CascadedFoc (Cont ℝ × Cont ℝ) θ) : Prop :=
  ∃ x y z t, st = ((x, y), .cont z, t) ∧ Born g x ∧ Born e y ∧ Born w z ∧ (task ≠ .speed → z = w.new) ∧ (task = .current → t = t0)

theorem reached_step (st : CascadedFoc (Cont ℝ × Cont ℝ) θ) (h : Reached task g e w t0 st) (s r : ℕ → ℝ) :
    Reached task g e w t0 (c.cascaded task o conv refD st s r).1 := by
  obtain ⟨x, y, z, t, rfl, h1, h2, h3, h4, h5⟩ := h
  have hr : ∃ z' t', (cascadedRefs task o conv refD ((x, y), .cont z, t) s r).1 = (.cont z', t') ∧ Born w z' ∧ (task ≠ .speed → z' = w.new) ∧
      (task = .current → t' = t0) := by
    cases task with
    | current => exact ⟨z, t, rfl, h3, h4, h5⟩
    | torque => exact ⟨z, _, rfl, h3, h4, by simp⟩
    | speed =>
      obtain ⟨z', ez, bz⟩ := born_overlaid o h3 s (r 0)
      exact ⟨z', _, by simp only [cascadedRefs, ez]; rfl, bz, by simp, by simp⟩
  obtain ⟨z', t', er, b1, b2, b3⟩ := hr
  have hc : ∀ rd rq, Born g (c.currents (x, y) s rd rq).1.1 ∧ Born e (c.currents (x, y) s rd rq).1.2 := fun rd rq => by
    simp only [Foc.currents, integrated]
    split_ifs
    · exact ⟨born_integrate (born_control h1 _ _) _ _, born_integrate (born_control h2 _ _) _ _⟩
    · exact ⟨born_control h1 _ _, born_control h2 _ _⟩
  let q := (cascadedRefs task o conv refD ((x, y), .cont z, t) s r).2
  refine ⟨(c.currents (x, y) s q.1 q.2).1.1, (c.currents (x, y) s q.1 q.2).1.2, z', t', ?_, (hc _ _).1, (hc _ _).2, b1, b2, b3⟩
  simp only [Foc.cascaded, er]
  rfl

theorem reached_reset (st : CascadedFoc (Cont ℝ × Cont ℝ) θ) (h : Reached task g e w t0 st) :
    ∃ t, (task = .current → t = t0) ∧
      cascadedFocReset focReset task conv st = ((g.new, e.new), .cont w.new, if task = .current then t else conv.reset t) := by
  obtain ⟨x, y, z, t, rfl, h1, h2, h3, h4, h5⟩ := h
  refine ⟨t, h5, ?_⟩
  simp only [cascadedFocReset, focReset, born_reset h1, born_reset h2, Stage.reset, born_reset h3]
  by_cases hs : task = .speed
  · simp [hs]
  · simp [hs, h4 hs]

theorem reached_after (calls : List (Asked ℝ)) : ∀ st, Reached task g e w t0 st → Reached task g e w t0 (cfocAfter c task o conv refD st calls) := by
  induction calls with
  | nil => exact fun st h => h
  | cons a l ih =>
    intro st h
    cases a with
    | control s r => exact ih _ (reached_step c task o conv refD g e w t0 st h s r)
    | reset =>
      obtain ⟨t, ht, hr⟩ := reached_reset task conv g e w t0 st h
      refine ih _ ?_
      rw [hr]
      exact ⟨_, _, _, _, rfl, born_new g, born_new e, born_new w, fun _ => rfl, fun hc => by rw [if_pos hc]; exact ht hc⟩

theorem cfocAfter_append (l l' : List (Asked ℝ)) (st) : cfocAfter c task o conv refD st (l ++ l') =
    cfocAfter c task o conv refD (cfocAfter c task o conv refD st l) l' := by
  induction l generalizing st with
  | nil => rfl
  | cons a l ih => cases a <;> exact ih _

theorem alike_actions {R : θ → θ → Prop} (hR : ForgetsPast conv R) (next : List (Asked ℝ)) : ∀ (x : Cont ℝ × Cont ℝ) (z : Classic.Stage ℝ) (t t' : θ), R t t' →
    cfocActions c task o conv refD (x, z, t) next = cfocActions c task o conv refD (x, z, t') next := by
  induction next with
  | nil => exact fun _ _ _ _ _ => rfl
  | cons a l ih =>
    intro x z t t' h
    cases a with
    | reset =>
      simp only [cfocActions, cascadedFocReset]
      by_cases hc : task = .current
      · simp only [hc, if_true] at ih ⊢
        exact ih _ _ _ _ h
      · simp only [hc, if_false]
        exact ih _ _ _ _ (hR.reset _ _)
    | control s r =>
      cases task with
      | current =>
        simp only [cfocActions, Foc.cascaded, cascadedRefs]
        rw [ih _ _ _ _ h]
      | torque =>
        obtain ⟨k1, k2⟩ := hR.control t t' h s (r 0 * o.limit)
        simp only [cfocActions, Foc.cascaded, cascadedRefs]
        rw [k2, ih _ _ _ _ k1]
      | speed =>
        obtain ⟨k1, k2⟩ := hR.control t t' h s ((o.control z s (r 0)).2 * o.limit)
        simp only [cfocActions, Foc.cascaded, cascadedRefs]
        rw [k2, ih _ _ _ _ k1]

/-- C146: after a `reset` a cascaded field oriented controller of a synchronous motor acts as if there had been no calls before, for every task, all gains
and every conversion that forgets: the past has no influence on any later action. -/
theorem c146_reset {R : θ → θ → Prop} (hR : ForgetsPast conv R) (calls next : List (Asked ℝ)) :
    cfocActions c task o conv refD (cfocAfter c task o conv refD ((g.new, e.new), .cont w.new, t0) (calls ++ [.reset])) next =
      cfocActions c task o conv refD (cfocAfter c task o conv refD ((g.new, e.new), .cont w.new, t0) [.reset]) next := by
  have h0 : Reached task g e w t0 ((g.new, e.new), .cont w.new, t0) :=
    ⟨_, _, _, _, rfl, born_new g, born_new e, born_new w, fun _ => rfl, fun _ => rfl⟩
  obtain ⟨t, ht, hr⟩ := reached_reset task conv g e w t0 _ (reached_after c task o conv refD g e w t0 calls _ h0)
  obtain ⟨t', ht', hr'⟩ := reached_reset task conv g e w t0 _ h0
  rw [cfocAfter_append]
  simp only [cfocAfter, hr, hr']
  refine alike_actions c task o conv refD hR next _ _ _ _ ?_
  by_cases hc : task = .current
  · rw [if_pos hc, if_pos hc, ht hc, ht' hc]
    exact hR.refl _
  · rw [if_neg hc, if_neg hc]
    exact hR.reset _ _

end

/-- what can remain of the past in the conversion of a synchronous motor -/
def SameMod (k : SyncTorque) (t t' : ModSt) : Prop := t = t' ∨ t.integrated = some k.mod.resetValue ∧ t'.integrated = some k.mod.resetValue

theorem sameMod_modulation (k : SyncTorque) {t t' : ModSt} (h : SameMod k t t') (s : ℕ → ℝ) : k.modulation t s = k.modulation t' s := by
  rcases h with rfl | ⟨h, h'⟩
  · rfl
  · obtain ⟨i, l⟩ := t
    obtain ⟨i', l'⟩ := t'
    simp only at h h'
    subst h h'
    simp only [SyncTorque.modulation, Ops.modulation]
    have e : ∀ (b : Prop) [Decidable b] (l : Bool), (if b then ({ integrated := some k.mod.resetValue, limited := l } : ModSt) else ⟨some k.mod.resetValue, l⟩) =
        ⟨some k.mod.resetValue, l⟩ := fun b _ l => ite_self _
    simp only [e, ite_self]

/-- C146: the conversion of a synchronous motor forgets (the flag `limited` survives a `reset`, but has no effect then), … -/
theorem c146_sync_forgets (k : SyncTorque) : ForgetsPast k.conversion (SameMod k) where
  refl t := .inl rfl
  reset t t' := .inr ⟨rfl, rfl⟩
  control t t' h s T := by
    simp only [SyncTorque.conversion, SyncTorque.control, sameMod_modulation k h s]
    cases at? k.tab.mtpc (idxMtpc k.tab.maxTorque k.tab.tCount T) with
    | error e => exact ⟨h, rfl⟩
    | ok r =>
      simp only
      split <;> exact ⟨.inl rfl, trivial⟩

/-- … hence `c146_reset` holds for the controllers of the code. -/
example (c : Foc) (o : Overlaid) (k : SyncTorque) (g e w : Gains ℝ) (calls next : List (Asked ℝ)) :
    cfocActions c .speed o k.conversion 0 (cfocAfter c .speed o k.conversion 0 ((g.new, e.new), .cont w.new, syncTorqueNew) (calls ++ [.reset])) next =
      cfocActions c .speed o k.conversion 0 (cfocAfter c .speed o k.conversion 0 ((g.new, e.new), .cont w.new, syncTorqueNew) [.reset]) next :=
  c146_reset c .speed o k.conversion 0 g e w syncTorqueNew (c146_sync_forgets k) calls next

/-- A conversion for an induction motor. -/
def smallIm : ImTorque :=
  { mp := ⟨1, 1, 1, 1, 1, 1⟩, mod := ⟨1, 1, 1, 1, 4 / 5, 1, -1, 1, -1 / 2⟩, psiOpt := [1], tMaxPsi := [some 1], psiMax := 1, tMax := 1, tCount := 1
    psiCount := 1, nomD := 1, nomQ := 1, limD := 1, limQ := 1, omega := 0, uSd := 1, uSq := 2, limOmega := 1, limUd := 1, limUq := 1 }

/-- C146 is violated for induction motors: their conversion keeps the integrated modulation in a `reset`.  The largest flux after a `reset` depends on what
was before: on a voltage beyond the limit (the first call) here. -/
theorem c146_im_violated : ∃ (c : ImTorque) (p tau psiAbs : ℝ) (s s' : ℕ → ℝ) (torque : ℝ),
    (c.modulation (imConvAfter c (imTorqueNew p tau) [.control psiAbs s torque, .reset]).2 s').2 ≠
      (c.modulation (imConvAfter c (imTorqueNew p tau) [.reset]).2 s').2 := by
  refine ⟨smallIm, 1, 1, 1, fun j => if j = 2 then 0 else 1, fun j => if j = 0 then 1 else 0, 0, ?_⟩
  have h1 : at? smallIm.psiOpt (idxPsiOpt smallIm.tMax smallIm.tCount 0) = .ok 1 := by
    simp [smallIm, at?, idxPsiOpt, pyRound]
  have h2 : (imConvAfter smallIm (imTorqueNew 1 1) [.control 1 (fun j => if j = 2 then 0 else 1) 0, .reset]).2 = -1 / 2 := by
    have h3 : (smallIm.modulation 0 (fun j => if j = 2 then 0 else 1)).1 = -1 / 2 := by
      simp [ImTorque.modulation, smallIm, modulationOf]
      norm_num
    simp only [imConvAfter, imTorqueReset, ImTorque.control, h1]
    split <;> exact h3
  rw [h2]
  simp only [imConvAfter, imTorqueReset, imTorqueNew]
  simp [ImTorque.modulation, smallIm, modulationOf, clip]
  norm_num
  have h3 : (0 : ℝ) < (√3)⁻¹ := by positivity
  rw [max_eq_left (by linarith), max_eq_left (by linarith)]
  intro h
  linarith

/-! ## The torque that is asked for -/

/-- C146: whatever torque belongs to the currents of the conversion (here: any function `tq`, of `i_sq` and `i_sd`), the references of the current
controllers belong to the reference of the torque times its limit, in speed control to the answer of the overlaid controller, which is never more than the
limit of the torque. -/
theorem c146_torque {φ θ : Type} (o : Overlaid) (conv : Conversion θ) (refD : ℕ) (st : CascadedFoc φ θ) (s reference : ℕ → ℝ) (tq : ℝ → ℝ → ℝ)
    (hconv : ∀ x s T, tq (conv.control x s T).2.1 (conv.control x s T).2.2 = T) (h1 : 0 ≤ o.nominal) (h2 : o.nominal ≤ o.limit) (h3 : 0 < o.limit)
    (hl : -1 ≤ o.low ∧ o.low ≤ 0) (hh : 0 ≤ o.high ∧ o.high ≤ 1) :
    let r := fun task => (cascadedRefs task o conv refD st s reference).2
    tq (r .torque).2 (r .torque).1 = reference 0 * o.limit ∧ |tq (r .speed).2 (r .speed).1| ≤ o.limit := by
  intro r
  refine ⟨hconv _ _ _, ?_⟩
  have : tq (r .speed).2 (r .speed).1 = (o.control st.2.1 s (reference 0)).2 * o.limit := hconv _ _ _
  rw [this, abs_mul, abs_of_pos h3]
  refine mul_le_of_le_one_left h3.le ?_
  have hq : 0 ≤ o.nominal / o.limit ∧ o.nominal / o.limit ≤ 1 := ⟨by positivity, (div_le_one h3).2 h2⟩
  have hc : ∀ y, |clip y (o.nominal / o.limit * o.low) (o.nominal / o.limit * o.high)| ≤ 1 := fun y => by
    have a1 : o.nominal / o.limit * o.low ≤ 0 := mul_nonpos_of_nonneg_of_nonpos hq.1 hl.2
    have a2 : 0 ≤ o.nominal / o.limit * o.high := mul_nonneg hq.1 hh.1
    have a3 : -1 ≤ o.nominal / o.limit * o.low := by nlinarith [hq.1, hq.2, hl.1, hl.2]
    have a4 : o.nominal / o.limit * o.high ≤ 1 := by nlinarith [hq.1, hq.2, hh.1, hh.2]
    rw [abs_le]
    unfold clip
    exact ⟨le_min (a3.trans (le_max_right _ _)) (by linarith), (min_le_right _ _).trans a4⟩
  cases st.2.1 with
  | disc x => exact hc _
  | cont x =>
    rw [overlaid_eq]
    split_ifs with hi
    · exact abs_le.2 ⟨by linarith [hi.1, hl.1, hl.2], by linarith [hi.2, hh.1, hh.2]⟩
    · exact hc _

/-- A motor whose torque is `i_sq`: half of the torque limit 6 is asked for. -/
example : (cascadedRefs (φ := Unit) .torque ⟨0, -1, 1, 4, 6⟩ ⟨fun (_ : Unit) _ T => ((), T, 0), id⟩ 0 ((), .cont (Cont.new 1 1 none 1), ()) (fun _ => 0)
    (fun _ => 1 / 2)).2.2 = 3 := by
  have h := (c146_torque (φ := Unit) ⟨0, -1, 1, 4, 6⟩ ⟨fun (_ : Unit) _ T => ((), T, 0), id⟩ 0 ((), .cont (Cont.new 1 1 none 1), ()) (fun _ => 0)
    (fun _ => 1 / 2) (fun q _ => q) (fun _ _ _ => rfl) (by norm_num) (by norm_num) (by norm_num) (by norm_num) (by norm_num)).1
  simp only at h
  rw [h]
  norm_num

/-! ## The flux correction -/

theorem clip_ordered {x lo hi : ℝ} (h : lo ≤ hi) : lo ≤ clip x lo hi ∧ clip x lo hi ≤ hi :=
  ⟨le_min (le_max_right _ _) h, min_le_right _ _⟩

/-- C146: the modulation controller of a synchronous motor aims at less than the largest modulation, its reset value is in the range of the correction, and
in every state its largest flux differs from that of the speed by at most a fifth of the flux at the nominal currents. -/
theorem c146_sync_flux (mp : SyncParams ℝ) (nomD nomQ limUa r tau : ℝ) :
    let m := syncMod mp nomD nomQ limUa r tau
    0 < m.k * m.aMax ∧ m.k * m.aMax < m.aMax ∧ m.psiLow ≤ m.resetValue ∧ m.resetValue ≤ m.psiHigh ∧
    ∀ st omega usd usq f, (Ops.modulation m st omega usd usq).2 = .ok f → |f - psiAtSpeed m omega| ≤ mtpfFlux mp nomD nomQ / 5 := by
  intro m
  have hF : 0 ≤ mtpfFlux mp nomD nomQ := Real.sqrt_nonneg _
  have ha : 0 < m.aMax := by simp only [m, syncMod]; positivity
  have hk : m.k = 95 / 100 := rfl
  have hlow : m.psiLow = -(2 / 10 * mtpfFlux mp nomD nomQ) := rfl
  have hhigh : m.psiHigh = 2 / 10 * mtpfFlux mp nomD nomQ := rfl
  have hres : m.resetValue = 1 / 100 * -(2 / 10 * mtpfFlux mp nomD nomQ) := rfl
  refine ⟨by rw [hk]; positivity, by rw [hk]; linarith, by rw [hlow, hres]; linarith, by rw [hhigh, hres]; linarith, ?_⟩
  intro st omega usd usq f hf
  simp only [Ops.modulation] at hf
  generalize (if 11 / 10 * m.aMax < modulationOf m usd usq then { st with integrated := some m.resetValue } else st) = st1 at hf
  obtain ⟨i, l⟩ := st1
  cases i with
  | none => simp at hf
  | some x =>
    simp only at hf
    generalize m.iGain / (2 * max |omega| (1 / 10000) * m.p / m.uDc) * ((m.k * m.aMax - modulationOf m usd usq) * m.tau + x) = G at hf
    by_cases hd : m.psiLow ≤ G ∧ G ≤ m.psiHigh
    · rw [if_pos hd] at hf
      simp only [Except.ok.injEq] at hf
      rw [← hf, add_sub_cancel_left, abs_le]
      exact ⟨by linarith [hd.1], by linarith [hd.2]⟩
    · rw [if_neg hd] at hf
      simp only [Except.ok.injEq] at hf
      have := clip_ordered (x := G) (show m.psiLow ≤ m.psiHigh by linarith)
      rw [← hf, add_sub_cancel_left, abs_le]
      exact ⟨by linarith [this.1], by linarith [this.2]⟩

/-- C146 for induction motors: the same with a correction of at most a tenth of the largest flux upwards and the largest flux downwards; the flux is never
negative. -/
theorem c146_im_flux (c : ImTorque) (limUa tau : ℝ) (hc : c.mod = imMod c.mp c.psiMax limUa tau) (hp : 0 ≤ c.psiMax)
    (hl : 0 ≤ c.limOmega) :
    0 < c.mod.k * c.mod.aMax ∧ c.mod.k * c.mod.aMax < c.mod.aMax ∧ c.mod.psiLow ≤ c.mod.resetValue ∧ c.mod.resetValue ≤ c.mod.psiHigh ∧
    ∀ x s, 0 ≤ (c.modulation x s).2 ∧ psiAtSpeed c.mod (|s c.omega| * c.limOmega) - c.psiMax ≤ (c.modulation x s).2 ∧
      (c.modulation x s).2 ≤ max (psiAtSpeed c.mod (|s c.omega| * c.limOmega) + c.psiMax / 10) 0 := by
  have ha : c.mod.aMax = 1 := by rw [hc]; rfl
  have hk : c.mod.k = 8 / 10 := by rw [hc]; rfl
  have hlow : c.mod.psiLow = -c.psiMax := by rw [hc]; rfl
  have hhigh : c.mod.psiHigh = 1 / 10 * c.psiMax := by rw [hc]; rfl
  have hres : c.mod.resetValue = 5 / 10 * -c.psiMax := by rw [hc]; rfl
  refine ⟨by rw [hk, ha]; norm_num, by rw [hk, ha]; norm_num, by rw [hlow, hres]; linarith, by rw [hhigh, hres]; linarith, ?_⟩
  intro x s
  have hs : psiAtSpeed c.mod (|s c.omega| * c.limOmega) = c.mod.uDc / (√3 * max (|s c.omega| * c.limOmega) (1 / 10000) * c.mod.p) := by
    unfold psiAtSpeed
    rw [abs_of_nonneg (mul_nonneg (abs_nonneg _) hl)]
  rw [hs]
  simp only [ImTorque.modulation]
  generalize c.mod.uDc / (√3 * max (|s c.omega| * c.limOmega) (1 / 10000) * c.mod.p) = Q
  generalize c.mod.iGain * (2 * max (|s c.omega| * c.limOmega) (1 / 10000) * c.mod.p / c.mod.uDc) * _ = G
  have h : c.mod.psiLow ≤ (if c.mod.psiLow ≤ G ∧ G ≤ c.mod.psiHigh then G else clip G c.mod.psiLow c.mod.psiHigh) ∧
      (if c.mod.psiLow ≤ G ∧ G ≤ c.mod.psiHigh then G else clip G c.mod.psiLow c.mod.psiHigh) ≤ c.mod.psiHigh := by
    split_ifs with hd
    · exact hd
    · exact clip_ordered (by linarith)
  exact ⟨le_max_right _ _, (by linarith [h.1] : _ ≤ _).trans (le_max_left _ _), max_le_max (by linarith [h.2]) le_rfl⟩

/-- The flux correction of a motor with flux 1 and no currents. -/
example : (syncMod (⟨1, 1, 1, 1, 1⟩ : SyncParams ℝ) 0 0 1 1 1).psiHigh = 1 / 5 := by
  simp [syncMod, mtpfFlux]
  norm_num

/-! ## Gains and converters -/

/-- C146: the automatic gains of current control (continuous actions) belong to both axes: the first stage of the automatic design gets those of the
d axis, the second one those of the q axis. -/
theorem c146_gains (s : ClassicMake.Setting) (d : Registry.Defaults) (hm : ClassicMake.isSync d.motor = true) (hb : (ClassicMake.space d).isBox = true)
    (hq : "i_sq" ∈ ClassicMake.refStates d) :
    ∃ key stages, ClassicMake.design s d = .ok (key, stages) ∧ ClassicMake.gainFoc d stages = .ok [.list [⟨.pi, some .d⟩, ⟨.pi, some .q⟩]] := by
  have h1 : ClassicMake.isDc d.motor = false := by
    cases hh : d.motor <;> rw [hh] at hm <;> first | rfl | cases hm
  have h2 : ClassicMake.space d ≠ .discrete := fun h => by rw [h] at hb; cases hb
  refine ⟨.foc, [.list [⟨.pi, none⟩, ⟨.pi, none⟩]], ?_, ?_⟩
  · simp [ClassicMake.design, h1, hm, ClassicMake.designAc, hq, h2]
  · simp only [ClassicMake.gainFoc, hb, if_true]
    have h3 : ClassicMake.inner [.list [⟨.pi, none⟩, ⟨.pi, none⟩]] 0 0 = .ok ⟨.pi, none⟩ := rfl
    have h4 : ClassicMake.inner [.list [⟨.pi, none⟩, ⟨.pi, none⟩]] 0 1 = .ok ⟨.pi, none⟩ := rfl
    simp only [h3, h4, hq, true_and, Bind.bind, Except.bind]
    rfl

/-- C146: however a continuous multi converter was used (the sampling time unchanged), after a `reset` its sub converters are the same as if it had not
been used. -/
theorem c146_multi_reset (cs : List (Conv.CConv ℝ)) (ops : List (Conv.COp ℝ)) (h : ∀ op ∈ ops, ∀ v, op ≠ .setTau v) :
    Conv.cmRun cs (ops ++ [.reset]) = Conv.cmRun cs [.reset] := by
  have hk : List.Forall₂ CKin cs cs := List.forall₂_same.2 fun _ _ => rfl
  have key : ∀ (ops : List (Conv.COp ℝ)) (ds : List (Conv.CConv ℝ)), (∀ op ∈ ops, ∀ v, op ≠ .setTau v) → List.Forall₂ CKin cs ds →
      List.Forall₂ CKin cs (Conv.cmRun ds ops) := by
    intro ops
    induction ops with
    | nil => exact fun _ _ h => h
    | cons op ops ih =>
      intro ds hn hds
      refine ih _ (fun o ho => hn o (List.mem_cons_of_mem _ ho)) ?_
      cases op with
      | setAction a t => exact (cMulti_forgets cs).set_kin ds a t hds
      | reset => exact (cMulti_forgets cs).reset_kin ds hds
      | setTau v => exact absurd rfl (hn _ List.mem_cons_self v)
  have := ((cMulti_forgets cs).reset _ _ (key ops cs h hk) hk).2
  simp only [Conv.cmRun, List.foldl_append, List.foldl_cons, List.foldl_nil] at this ⊢
  exact this

/-- Two converters with four quadrants. -/
example : Conv.cmRun [.four (Conv.CFour.new (1 : ℝ) 0), .four (Conv.CFour.new 1 0)] [.setAction [1, -1] 0, .reset] =
    Conv.cmRun [.four (Conv.CFour.new 1 0), .four (Conv.CFour.new 1 0)] [.reset] :=
  c146_multi_reset _ [.setAction [1, -1] 0] (by simp)

end

end GEM.Props
