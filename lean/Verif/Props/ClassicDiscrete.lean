import Verif.Props.ClassicDetails

/-!
# C146 with discrete actions
-/

set_option linter.unusedSectionVars false

namespace GEM.Props

noncomputable section

open GEM GEM.Classic GEM.Motor GEM.Ops

/-- a discrete controller as the constructors leave it -/
inductive NewDisc : Disc ℝ → Prop
  | onOff (n : ℕ) (hysteresis : ℝ) (cascaded : Option ℤ) (controlE : Bool) : NewDisc (.onOff (OnOff.new n hysteresis cascaded controlE))
  | three (n : ℕ) (pos neg fromPos fromNeg : ℝ) (cascaded : Option ℤ) (controlE : Bool) :
      NewDisc (.three (ThreePoint.new n pos neg fromPos fromNeg cascaded controlE))

theorem newDisc_reset {x : Disc ℝ} (h : NewDisc x) : x.reset = x := by cases h <;> rfl

theorem disc_keeps_reset (x : Disc ℝ) (s r : ℝ) : (x.control s r).1.reset = x.reset := by
  cases x with
  | onOff c => rfl
  | three c =>
    simp only [Disc.control, Disc.reset, ThreePoint.control]
    split_ifs <;> rfl

/-- `reset` of the controllers of the phases (cascaded_foc_controller.py 308–310) -/
def phasesReset (x : Fin 3 → Disc ℝ) : Fin 3 → Disc ℝ := fun j => (x j).reset

/-- the switching states that a cascaded field oriented controller with discrete actions commands -/
def switchActions {θ : Type} (c : Foc) (abc : Fin 3 → ℕ) (task : Task) (o : Overlaid) (conv : Conversion θ) (refD : ℕ) :
    CascadedFoc (Fin 3 → Disc ℝ) θ → List (Asked ℝ) → List ℤ
  | _, [] => []
  | st, .control s r :: l =>
    (c.cascadedDisc abc task o conv refD st s r).2 :: switchActions c abc task o conv refD (c.cascadedDisc abc task o conv refD st s r).1 l
  | st, .reset :: l => switchActions c abc task o conv refD (cascadedFocReset phasesReset task conv st) l

/-- its state after some calls -/
def switchAfter {θ : Type} (c : Foc) (abc : Fin 3 → ℕ) (task : Task) (o : Overlaid) (conv : Conversion θ) (refD : ℕ) :
    CascadedFoc (Fin 3 → Disc ℝ) θ → List (Asked ℝ) → CascadedFoc (Fin 3 → Disc ℝ) θ
  | st, [] => st
  | st, .control s r :: l => switchAfter c abc task o conv refD (c.cascadedDisc abc task o conv refD st s r).1 l
  | st, .reset :: l => switchAfter c abc task o conv refD (cascadedFocReset phasesReset task conv st) l

section

variable {θ : Type} (c : Foc) (abc : Fin 3 → ℕ) (task : Task) (o : Overlaid) (conv : Conversion θ) (refD : ℕ) (d : Fin 3 → Disc ℝ) (w : Gains ℝ) (t0 : θ)

/-- the states a new controller can get into -/
def ReachedDisc (st : CascadedFoc (Fin 3 → Disc ℝ) θ) : Prop :=
  ∃ x z t, st = (x, .cont z, t) ∧ phasesReset x = d ∧ Born w z ∧ (task ≠ .speed → z = w.new) ∧ (task = .current → t = t0)

theorem reachedDisc_step (st : CascadedFoc (Fin 3 → Disc ℝ) θ) (h : ReachedDisc task d w t0 st) (s r : ℕ → ℝ) :
    ReachedDisc task d w t0 (c.cascadedDisc abc task o conv refD st s r).1 := by
  obtain ⟨x, z, t, rfl, h1, h3, h4, h5⟩ := h
  have hr : ∃ z' t', (cascadedRefs task o conv refD (x, .cont z, t) s r).1 = (.cont z', t') ∧ Born w z' ∧ (task ≠ .speed → z' = w.new) ∧
      (task = .current → t' = t0) := by
    cases task with
    | current => exact ⟨z, t, rfl, h3, h4, h5⟩
    | torque => exact ⟨z, _, rfl, h3, h4, by simp⟩
    | speed =>
      obtain ⟨z', ez, bz⟩ := born_overlaid o h3 s (r 0)
      exact ⟨z', _, by simp only [cascadedRefs, ez]; rfl, bz, by simp, by simp⟩
  obtain ⟨z', t', er, b1, b2, b3⟩ := hr
  let q := (cascadedRefs task o conv refD (x, .cont z, t) s r).2
  refine ⟨(c.switching abc x s q.1 q.2).1, z', t', ?_, ?_, b1, b2, b3⟩
  · simp only [Foc.cascadedDisc, er]
    rfl
  · rw [← h1]
    funext j
    exact disc_keeps_reset _ _ _

theorem reachedDisc_reset (st : CascadedFoc (Fin 3 → Disc ℝ) θ) (h : ReachedDisc task d w t0 st) :
    ∃ t, (task = .current → t = t0) ∧ cascadedFocReset phasesReset task conv st = (d, .cont w.new, if task = .current then t else conv.reset t) := by
  obtain ⟨x, z, t, rfl, h1, h3, h4, h5⟩ := h
  refine ⟨t, h5, ?_⟩
  simp only [cascadedFocReset, h1, Stage.reset, born_reset h3]
  by_cases hs : task = .speed
  · simp [hs]
  · simp [hs, h4 hs]

theorem reachedDisc_after (hd : phasesReset d = d) (calls : List (Asked ℝ)) :
    ∀ st, ReachedDisc task d w t0 st → ReachedDisc task d w t0 (switchAfter c abc task o conv refD st calls) := by
  induction calls with
  | nil => exact fun st h => h
  | cons a l ih =>
    intro st h
    cases a with
    | control s r => exact ih _ (reachedDisc_step c abc task o conv refD d w t0 st h s r)
    | reset =>
      obtain ⟨t, ht, hr⟩ := reachedDisc_reset task conv d w t0 st h
      refine ih _ ?_
      rw [hr]
      exact ⟨_, _, _, rfl, hd, born_new w, fun _ => rfl, fun hc => by rw [if_pos hc]; exact ht hc⟩

theorem switchAfter_append (l l' : List (Asked ℝ)) (st) : switchAfter c abc task o conv refD st (l ++ l') =
    switchAfter c abc task o conv refD (switchAfter c abc task o conv refD st l) l' := by
  induction l generalizing st with
  | nil => rfl
  | cons a l ih => cases a <;> exact ih _

theorem alike_switching {R : θ → θ → Prop} (hR : ForgetsPast conv R) (next : List (Asked ℝ)) :
    ∀ (x : Fin 3 → Disc ℝ) (z : Classic.Stage ℝ) (t t' : θ), R t t' →
      switchActions c abc task o conv refD (x, z, t) next = switchActions c abc task o conv refD (x, z, t') next := by
  induction next with
  | nil => exact fun _ _ _ _ _ => rfl
  | cons a l ih =>
    intro x z t t' h
    cases a with
    | reset =>
      simp only [switchActions, cascadedFocReset]
      by_cases hc : task = .current
      · simp only [hc, if_true] at ih ⊢
        exact ih _ _ _ _ h
      · simp only [hc, if_false]
        exact ih _ _ _ _ (hR.reset _ _)
    | control s r =>
      cases task with
      | current =>
        simp only [switchActions, Foc.cascadedDisc, cascadedRefs]
        rw [ih _ _ _ _ h]
      | torque =>
        obtain ⟨k1, k2⟩ := hR.control t t' h s (r 0 * o.limit)
        simp only [switchActions, Foc.cascadedDisc, cascadedRefs]
        rw [k2, ih _ _ _ _ k1]
      | speed =>
        obtain ⟨k1, k2⟩ := hR.control t t' h s ((o.control z s (r 0)).2 * o.limit)
        simp only [switchActions, Foc.cascadedDisc, cascadedRefs]
        rw [k2, ih _ _ _ _ k1]

/-- C146 with discrete actions: after a `reset` the controller commands the switching states it would command had there been no calls before. -/
theorem c146_discrete_reset {R : θ → θ → Prop} (hR : ForgetsPast conv R) (hd : ∀ j, NewDisc (d j)) (calls next : List (Asked ℝ)) :
    switchActions c abc task o conv refD (switchAfter c abc task o conv refD (d, .cont w.new, t0) (calls ++ [.reset])) next =
      switchActions c abc task o conv refD (switchAfter c abc task o conv refD (d, .cont w.new, t0) [.reset]) next := by
  have hd' : phasesReset d = d := funext fun j => newDisc_reset (hd j)
  have h0 : ReachedDisc task d w t0 (d, .cont w.new, t0) := ⟨_, _, _, rfl, hd', born_new w, fun _ => rfl, fun _ => rfl⟩
  obtain ⟨t, ht, hr⟩ := reachedDisc_reset task conv d w t0 _ (reachedDisc_after c abc task o conv refD d w t0 hd' calls _ h0)
  obtain ⟨t', ht', hr'⟩ := reachedDisc_reset task conv d w t0 _ h0
  rw [switchAfter_append]
  simp only [switchAfter, hr, hr']
  refine alike_switching c abc task o conv refD hR next _ _ _ _ ?_
  by_cases hc : task = .current
  · rw [if_pos hc, if_pos hc, ht hc, ht' hc]
    exact hR.refl _
  · rw [if_neg hc, if_neg hc]
    exact hR.reset _ _

end

/-- Speed control of a synchronous motor with on-off controllers of the phases: two histories, one reset, the same switching states. -/
example (c : Foc) (k : SyncTorque) (o : Overlaid) (w : Gains ℝ) (t0 : ModSt) (calls next : List (Asked ℝ)) :
    let d : Fin 3 → Disc ℝ := fun _ => .onOff (OnOff.new 8 (2 / 100) none false)
    switchActions c ![2, 3, 4] .speed o k.conversion 0 (switchAfter c ![2, 3, 4] .speed o k.conversion 0 (d, .cont w.new, t0) (calls ++ [.reset])) next =
      switchActions c ![2, 3, 4] .speed o k.conversion 0 (switchAfter c ![2, 3, 4] .speed o k.conversion 0 (d, .cont w.new, t0) [.reset]) next :=
  c146_discrete_reset c _ _ o _ _ _ w t0 (c146_sync_forgets k) (fun _ => .onOff _ _ _ _) calls next

end

end GEM.Props
