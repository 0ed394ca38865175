import Mathlib.Tactic.FieldSimp
import Mathlib.Tactic.Linarith
import Verif.Props.ClassicWindup

/-!
# C128: switching and reset of the classic controllers
-/

set_option linter.unusedSectionVars false

namespace GEM.Props

open GEM GEM.Classic

section generic

variable {K : Type} [Field K] [LinearOrder K] [IsStrictOrderedRing K]

/-! ## Hysteresis -/

/-- a discrete controller after a series of errors, oldest first -/
def discAfter (c : Disc K) (errors : List (K × K)) : Disc K := errors.foldl (fun c e => (c.control e.1 e.2).1) c

/-- The positive branch of a three-point controller with hysteresis, as a statement about the errors since the last reset, oldest first:
once the error was above `pos`, and from then on above `fromPos`. -/
def SwitchedOn (pos fromPos : K) (errors : List K) : Prop :=
  ∃ before e after, errors = before ++ e :: after ∧ pos < e ∧ ∀ x ∈ after, fromPos < x

/-- One more error. -/
theorem switchedOn_snoc (pos fromPos : K) (l : List K) (e : K) :
    SwitchedOn pos fromPos (l ++ [e]) ↔ pos < e ∨ (fromPos < e ∧ SwitchedOn pos fromPos l) := by
  constructor
  · rintro ⟨b, x, a, h, hx, ha⟩
    rcases List.eq_nil_or_concat a with rfl | ⟨a', y, rfl⟩
    · left
      have := (List.append_inj' h (by simp)).2
      simp only [List.cons.injEq, and_true] at this
      rwa [this]
    · right
      have h' : l ++ [e] = (b ++ x :: a') ++ [y] := by rw [h]; simp
      obtain ⟨h1, h2⟩ := List.append_inj' h' (by simp)
      simp only [List.cons.injEq, and_true] at h2
      refine ⟨?_, b, x, a', h1, hx, fun z hz => ha z (by simp [hz])⟩
      rw [h2]
      exact ha y (by simp)
  · rintro (h | ⟨h, b, x, a, rfl, hx, ha⟩)
    · exact ⟨l, e, [], rfl, h, by simp⟩
    · refine ⟨b, x, a ++ [e], by simp, hx, ?_⟩
      intro z hz
      rcases List.mem_append.1 hz with hz | hz
      · exact ha z hz
      · rw [List.mem_singleton.1 hz]; exact h

theorem not_switched_nil (pos fromPos : K) : ¬ SwitchedOn pos fromPos [] := by
  rintro ⟨b, x, a, h, -⟩
  simp at h

/-- the errors of a series of states and references -/
def errorsOf (l : List (K × K)) : List K := l.map fun x => x.2 - x.1

theorem discAfter_snoc (c : Disc K) (l : List (K × K)) (x : K × K) : discAfter c (l ++ [x]) = ((discAfter c l).control x.1 x.2).1 := by
  simp [discAfter]

/-- what a three-point controller has stored -/
theorem three_stored (n : ℕ) (pos neg fp fn : K) (hp : 0 ≤ pos) (hn : 0 ≤ neg) (hfp : 0 ≤ fp) (hfn : 0 ≤ fn) (casc : Option ℤ) (ctlE : Bool)
    (l : List (K × K)) : ∃ c : ThreePoint K, discAfter (.three (ThreePoint.new n pos neg fp fn casc ctlE)) l = .three c ∧
      c.pos = pos ∧ c.neg = neg ∧ c.fromPos = fp ∧ c.fromNeg = fn ∧ c.negative = (ThreePoint.new n pos neg fp fn casc ctlE).negative ∧
      (c.recent = 1 ↔ SwitchedOn pos fp (errorsOf l)) ∧ (c.recent = 2 ↔ SwitchedOn neg fn ((errorsOf l).map Neg.neg)) := by
  induction l using List.reverseRecOn with
  | nil =>
    refine ⟨_, rfl, rfl, rfl, rfl, rfl, rfl, ?_, ?_⟩
    · simp [ThreePoint.new, errorsOf, not_switched_nil]
    · simp [ThreePoint.new, errorsOf, not_switched_nil]
  | append_singleton l x ih =>
    obtain ⟨c, h1, h2, h3, h4, h5, h6, h7, h8⟩ := ih
    rw [discAfter_snoc, h1]
    refine ⟨(c.control x.1 x.2).1, rfl, ?_⟩
    have e1 : errorsOf (l ++ [x]) = errorsOf l ++ [x.2 - x.1] := by simp [errorsOf]
    have e2 : (errorsOf (l ++ [x])).map Neg.neg = (errorsOf l).map Neg.neg ++ [-(x.2 - x.1)] := by rw [e1]; simp
    rw [e2, e1, switchedOn_snoc, switchedOn_snoc, ← h7, ← h8]
    set e := x.2 - x.1 with he
    unfold ThreePoint.control
    rw [← he, h2, h3, h4, h5]
    split_ifs with c1 c2
    · refine ⟨rfl, rfl, rfl, rfl, h6, by simpa [gt_iff_lt] using c1, ?_⟩
      simp only [show ¬ ((1 : ℤ) = 2) by norm_num, false_iff, not_or, not_and]
      have : 0 < e := by rcases c1 with c1 | c1 <;> [exact hp.trans_lt c1; exact hfp.trans_lt c1.1]
      exact ⟨by linarith, fun h => by linarith⟩
    · refine ⟨rfl, rfl, rfl, rfl, h6, ?_, ?_⟩
      · simpa [gt_iff_lt] using c1
      · simp only [true_iff]
        rcases c2 with c2 | c2
        · exact Or.inl (by linarith)
        · exact Or.inr ⟨by linarith [c2.1], c2.2⟩
    · refine ⟨rfl, rfl, rfl, rfl, h6, by simpa [gt_iff_lt] using c1, ?_⟩
      simp only [show ¬ ((0 : ℤ) = 2) by norm_num, false_iff, not_or, not_and]
      simp only [not_or, not_and] at c2
      exact ⟨fun h => c2.1 (by linarith), fun h => c2.2 (by linarith)⟩

/-- C128 for three-point controllers: in every history of calls since the controller was made or reset, the answer is 1 exactly if the
error was above `pos` at some call and has been above `switch_to_neutral_from_positive` since; it is the negative action exactly if the
same holds for the negative error and the other two parameters; otherwise it is 0. -/
theorem c128_three_point (n : ℕ) (pos neg fp fn : K) (hp : 0 ≤ pos) (hn : 0 ≤ neg) (hfp : 0 ≤ fp) (hfn : 0 ≤ fn) (casc : Option ℤ)
    (ctlE : Bool) (l : List (K × K)) (s r : K) :
    let new := Disc.three (ThreePoint.new n pos neg fp fn casc ctlE)
    let answer := ((discAfter new l).control s r).2
    (SwitchedOn pos fp (errorsOf (l ++ [(s, r)])) → answer = 1) ∧
    (SwitchedOn neg fn ((errorsOf (l ++ [(s, r)])).map Neg.neg) → answer = (ThreePoint.new n pos neg fp fn casc ctlE).negative) ∧
    (¬ SwitchedOn pos fp (errorsOf (l ++ [(s, r)])) → ¬ SwitchedOn neg fn ((errorsOf (l ++ [(s, r)])).map Neg.neg) → answer = 0) ∧
    ¬ (SwitchedOn pos fp (errorsOf (l ++ [(s, r)])) ∧ SwitchedOn neg fn ((errorsOf (l ++ [(s, r)])).map Neg.neg)) := by
  intro new answer
  obtain ⟨c, h1, h2, h3, h4, h5, h6, h7, h8⟩ := three_stored n pos neg fp fn hp hn hfp hfn casc ctlE l
  have e1 : errorsOf (l ++ [(s, r)]) = errorsOf l ++ [r - s] := by simp [errorsOf]
  have e2 : (errorsOf (l ++ [(s, r)])).map Neg.neg = (errorsOf l).map Neg.neg ++ [-(r - s)] := by rw [e1]; simp
  have ha : answer = (c.control s r).2 := by simp only [answer, new, h1, Disc.control]
  rw [e2, e1, switchedOn_snoc, switchedOn_snoc, ← h7, ← h8, ha, ← h6]
  unfold ThreePoint.control
  rw [h2, h3, h4, h5]
  have x1 : ∀ {e : K}, (pos < e ∨ fp < e ∧ c.recent = 1) → ¬ (neg < -e ∨ fn < -e ∧ c.recent = 2) := by
    intro e h h'
    have p : 0 < e := by rcases h with h | h <;> [exact hp.trans_lt h; exact hfp.trans_lt h.1]
    have p' : 0 < -e := by rcases h' with h' | h' <;> [exact hn.trans_lt h'; exact hfn.trans_lt h'.1]
    linarith
  have x2 : (r - s < -neg ∨ -fn > r - s ∧ c.recent = 2) ↔ (neg < -(r - s) ∨ fn < -(r - s) ∧ c.recent = 2) := by
    constructor
    · rintro (h | h)
      · exact Or.inl (by linarith)
      · exact Or.inr ⟨by linarith [h.1], h.2⟩
    · rintro (h | h)
      · exact Or.inl (by linarith)
      · exact Or.inr ⟨by linarith [h.1], h.2⟩
  refine ⟨fun h => ?_, fun h => ?_, fun h h' => ?_, fun h => x1 h.1 h.2⟩
  · rw [if_pos h]
  · rw [if_neg fun h' => x1 h' h, if_pos (x2.2 h)]
  · rw [if_neg h, if_neg fun h'' => h' (x2.1 h'')]

/-- the controller switches on above 2, off below 1 -/
example : SwitchedOn (2 : ℚ) 1 [0, 3, 3 / 2] ∧ ¬ SwitchedOn (2 : ℚ) 1 [0, 3, 1 / 2, 3 / 2] := by
  refine ⟨⟨[0], 3, [3 / 2], rfl, by norm_num, by norm_num⟩, ?_⟩
  have e : ([0, 3, 1 / 2, 3 / 2] : List ℚ) = ([0, 3] ++ [1 / 2]) ++ [3 / 2] := rfl
  rw [e, switchedOn_snoc, switchedOn_snoc]
  norm_num

/-- What hysteresis of an on-off controller means: on above the band, off below it, unchanged inside. -/
def Hysteresis (h e : K) (off old new : ℤ) : Prop :=
  (h < e → new = 1) ∧ (e < -h → new = off) ∧ (-h ≤ e → e ≤ h → new = old)

/-- C128 for on-off controllers: outside the band. -/
theorem c128_on_off_partial (c : OnOff K) (hh : 0 ≤ c.hysteresis) (s r : K) (h : c.hysteresis < r - s ∨ r - s < -c.hysteresis) :
    Hysteresis c.hysteresis (r - s) c.off c.action (c.control s r).2 := by
  unfold OnOff.control
  refine ⟨fun h1 => ?_, fun h1 => ?_, fun h1 h2 => ?_⟩
  · simp only [gt_iff_lt, if_pos h1]
  · simp only [gt_iff_lt]
    rw [if_neg (by linarith), if_pos (by linarith)]
  · exfalso
    rcases h with h | h <;> linarith

/-- C128 is violated by on-off controllers: both comparisons are with `hysteresis`, so that there is no band.  The answer does not depend
on the history unless the error is exactly the hysteresis, and inside the band a controller that is on switches off. -/
theorem c128_on_off_violated (c : OnOff K) (s r : K) :
    (∀ c' : OnOff K, c'.hysteresis = c.hysteresis → c'.off = c.off → r - s ≠ c.hysteresis → (c.control s r).2 = (c'.control s r).2) ∧
    (c.action = 1 → c.off ≠ 1 → -c.hysteresis ≤ r - s → r - s < c.hysteresis →
      (c.control s r).2 = c.off ∧ ¬ Hysteresis c.hysteresis (r - s) c.off c.action (c.control s r).2) := by
  constructor
  · intro c' h1 h2 h3
    unfold OnOff.control
    simp only [h1, h2]
    rcases lt_or_gt_of_ne h3 with h | h
    · rw [if_neg (not_lt.2 h.le), if_pos h, if_neg (not_lt.2 h.le), if_pos h]
    · rw [if_pos h, if_pos h]
  · intro h1 h2 h3 h4
    have e : (c.control s r).2 = c.off := by
      unfold OnOff.control
      simp only [gt_iff_lt]
      rw [if_neg (not_lt.2 h4.le), if_pos h4]
    refine ⟨e, fun h => h2 ?_⟩
    rw [← e, h.2.2 h3 h4.le, h1]

/-- Such a case: switched on, then the reference is reached exactly. -/
example : (((OnOff.new 4 (1 / 50 : ℚ) none false).control 0 1).1.control 1 1).2 = 2 := by
  norm_num [OnOff.control, OnOff.new]

/-! ## Reset -/

theorem cont_control_reset (c : Cont K) (s r : K) : (c.control s r).1.reset = c.reset := by
  obtain ⟨p, i, d, t, n, o⟩ := c
  cases d <;> rfl

theorem cont_integrate_reset (c : Cont K) (s r : K) : (c.integrate s r).reset = c.reset := by
  obtain ⟨p, i, d, t, n, o⟩ := c
  cases d <;> rfl

theorem guarded_reset (lo hi y : K) (c : Cont K) (s r : K) : (guarded lo hi y c s r).1.reset = c.reset := by
  unfold guarded
  split_ifs
  · exact cont_integrate_reset c s r
  · rfl

theorem disc_control_reset (c : Disc K) (s r : K) : (c.control s r).1.reset = c.reset := by
  cases c with
  | onOff c => rfl
  | three c =>
    simp only [Disc.control, Disc.reset, ThreePoint.control]
    split_ifs <;> rfl

theorem stage_control_reset (c : Stage K) (s r : K) : (c.control s r).1.reset = c.reset := by
  cases c with
  | cont c => exact congrArg Stage.cont (cont_control_reset c s r)
  | disc c => exact congrArg Stage.disc (disc_control_reset c s r)

theorem stage_outer_reset (c : Stage K) (lo hi a b r f : K) : (c.outer lo hi a b r f).1.reset = c.reset := by
  cases c with
  | cont c => exact congrArg Stage.cont ((guarded_reset ..).trans (cont_control_reset ..))
  | disc c => exact congrArg Stage.disc (disc_control_reset ..)

/-- a stage as the constructors make it -/
inductive Made : Stage K → Prop
  | cont (p i : K) (d : Option K) (tau : K) : Made (.cont (Cont.new p i d tau))
  | onOff (n : ℕ) (h : K) (casc : Option ℤ) (ctlE : Bool) : Made (.disc (.onOff (OnOff.new n h casc ctlE)))
  | three (n : ℕ) (pos neg fp fn : K) (casc : Option ℤ) (ctlE : Bool) :
      Made (.disc (.three (ThreePoint.new n pos neg fp fn casc ctlE)))

theorem fresh_reset {s : Stage K} (h : Made s) : s.reset = s := by
  cases h with
  | cont p i d tau => cases d <;> rfl
  | onOff => rfl
  | three => rfl

/-- C128 for the `ContinuousActionController`: whatever was called before, after `reset` the controller is as it was made. -/
theorem c128_reset_continuous (c : ContAction K) (g e : Gains K) (calls : List (Asked K)) :
    contAfter c (g.new, if c.exc.isSome then e.new else g.new) (calls ++ [.reset]) = (g.new, if c.exc.isSome then e.new else g.new) := by
  have hg : ∀ g : Gains K, g.new.reset = g.new := by
    intro g
    unfold Gains.new Cont.new Cont.reset
    cases g.d <;> rfl
  have main : ∀ (calls : List (Asked K)) (st : Cont K × Cont K), contAfter c st (calls ++ [.reset]) = c.reset st := by
    intro calls
    induction calls with
    | nil => exact fun st => rfl
    | cons a l ih =>
      intro st
      have key : ∀ st', c.reset st' = c.reset st → contAfter c st' (l ++ [.reset]) = c.reset st := fun st' h => (ih st').trans h
      cases a with
      | reset =>
        refine key _ ?_
        have h2 : ∀ x : Cont K, x.reset.reset = x.reset := fun x => by
          obtain ⟨p, i, d, t, n, o⟩ := x
          cases d <;> rfl
        unfold ContAction.reset
        split_ifs <;> simp only [h2]
      | control s r =>
        refine key _ ?_
        unfold ContAction.control
        cases c.feedforward s with
        | error x => simp only [ContAction.reset, cont_control_reset]
        | ok f =>
          cases hx : c.exc with
          | none => simp only [ContAction.reset, hx, guarded_reset, cont_control_reset, Option.isSome_none]
          | some x => simp only [ContAction.reset, hx, guarded_reset, cont_control_reset, Option.isSome_some, if_true]
  rw [main]
  unfold ContAction.reset
  split_ifs <;> simp only [hg]

/-- C128 for the cascades: all stages, continuous or discrete, are as they were made. -/
theorem c128_reset_cascade (c : Cascade K) (eps : K) {i o : Stage K} (hi : Made i) (ho : Made o) (calls : List (Asked K)) :
    cascAfter c eps (i, o) (calls ++ [.reset]) = (i, o) := by
  have hidem : ∀ s : Stage K, s.reset.reset = s.reset := by
    intro s
    rcases s with ⟨p, i, d, t, n, o⟩ | c
    · cases d <;> rfl
    · cases c <;> rfl
  have main : ∀ (calls : List (Asked K)) (st : Stage K × Stage K), cascAfter c eps st (calls ++ [.reset]) = cascadeReset st := by
    intro calls
    induction calls with
    | nil => exact fun st => rfl
    | cons a l ih =>
      intro st
      have key : ∀ st', cascadeReset st' = cascadeReset st → cascAfter c eps st' (l ++ [.reset]) = cascadeReset st :=
        fun st' h => (ih st').trans h
      cases a with
      | reset => exact key _ (by simp only [cascadeReset, hidem])
      | control s r =>
        refine key _ ?_
        have h1 : ∀ (x : Stage K) ref, (c.inner eps x s ref).1.reset = x.reset := by
          intro x ref
          cases x with
          | cont x => exact congrArg Stage.cont ((guarded_reset ..).trans (cont_control_reset ..))
          | disc x => exact congrArg Stage.disc (disc_control_reset ..)
        simp only [cascadeReset, Cascade.control, h1, stage_outer_reset]
  rw [main]
  simp only [cascadeReset, fresh_reset hi, fresh_reset ho]

/-- C128 is violated by the `DiscreteActionController` of the externally excited motor: `reset` raises AttributeError and leaves the
controller of the exciting circuit as it is. -/
theorem c128_reset_excited_violated (c : DiscAction) (h : c.refE ≠ none) (st : Disc K × Disc K) :
    (c.reset st).2 = .error .attribute ∧ (c.reset st).1.2 = st.2 := by
  refine ⟨?_, rfl⟩
  unfold DiscAction.reset
  rw [if_pos (Option.isSome_iff_ne_none.2 h)]

/-- ... and holds for the other motors. -/
theorem c128_reset_discrete_partial (c : DiscAction) (h : c.refE = none) {a : Disc K} (ha : Made (.disc a)) (b : Disc K)
    (calls : List ((ℕ → K) × (ℕ → K))) :
    c.reset (calls.foldl (fun st x => (c.control st x.1 x.2).1) (a, b)) = ((a, b), .ok ()) := by
  have main : ∀ (calls : List ((ℕ → K) × (ℕ → K))) (st : Disc K × Disc K),
      c.reset (calls.foldl (fun st x => (c.control st x.1 x.2).1) st) = ((st.1.reset, st.2), .ok ()) := by
    intro calls
    induction calls with
    | nil => intro st; simp only [List.foldl_nil, DiscAction.reset, h, Option.isSome_none, Bool.false_eq_true, if_false]
    | cons x l ih =>
      intro st
      rw [List.foldl_cons, ih]
      simp only [DiscAction.control, h, disc_control_reset]
  rw [main]
  have := fresh_reset ha
  simp only [Stage.reset, Stage.disc.injEq] at this
  rw [this]

end generic

/-! ## Field oriented control -/

/-- C128 for field oriented control with continuous actions, synchronous motors. -/
theorem c128_reset_foc (c : Foc) (refD refQ : ℕ) (g e : Gains ℝ) (calls : List (Asked ℝ)) :
    focAfter c refD refQ (g.new, e.new) (calls ++ [.reset]) = (g.new, e.new) := by
  have hg : ∀ g : Gains ℝ, g.new.reset = g.new := by
    intro g
    unfold Gains.new Cont.new Cont.reset
    cases g.d <;> rfl
  have h2 : ∀ x : Cont ℝ, x.reset.reset = x.reset := fun x => by
    obtain ⟨p, i, d, t, n, o⟩ := x
    cases d <;> rfl
  have main : ∀ (calls : List (Asked ℝ)) (st : Cont ℝ × Cont ℝ), focAfter c refD refQ st (calls ++ [.reset]) = focReset st := by
    intro calls
    induction calls with
    | nil => exact fun st => rfl
    | cons a l ih =>
      intro st
      have key : ∀ st', focReset st' = focReset st → focAfter c refD refQ st' (l ++ [.reset]) = focReset st :=
        fun st' h => (ih st').trans h
      cases a with
      | reset => exact key _ (by simp only [focReset, h2])
      | control s r =>
        refine key _ ?_
        simp only [focReset, Foc.control, Foc.currents, integrated]
        split_ifs <;> simp only [cont_integrate_reset, cont_control_reset]
  rw [main]
  simp only [focReset, hg]

/-- C128 for induction motors: also the estimated flux is 0 again. -/
theorem c128_reset_im (c : ImFoc) (refD refQ : ℕ) (g e : Gains ℝ) (calls : List ((ℕ → ℝ) × (ℕ → ℝ))) :
    imFocReset (calls.foldl (fun st x => (c.control refD refQ st x.1 x.2).1) ((g.new, e.new), 0)) = ((g.new, e.new), 0) := by
  have hg : ∀ g : Gains ℝ, g.new.reset = g.new := by
    intro g
    unfold Gains.new Cont.new Cont.reset
    cases g.d <;> rfl
  have main : ∀ (calls : List ((ℕ → ℝ) × (ℕ → ℝ))) (st : (Cont ℝ × Cont ℝ) × ℂ),
      imFocReset (calls.foldl (fun st x => (c.control refD refQ st x.1 x.2).1) st) = (focReset st.1, 0) := by
    intro calls
    induction calls with
    | nil => exact fun st => rfl
    | cons x l ih =>
      intro st
      rw [List.foldl_cons, ih]
      simp only [ImFoc.control, ImFoc.currents, integrated, focReset]
      split_ifs <;> simp only [cont_integrate_reset, cont_control_reset]
  rw [main]
  simp only [focReset, hg]

/-- C128 is violated by field oriented control with discrete actions: `reset` does not reset the controllers of the phases.  After a call
with large errors and a reset, three-point controllers answer 7 to errors between the thresholds, for which controllers as they were made
answer 0. -/
theorem c128_reset_switching_violated (c : Foc) (abc : Fin 3 → ℕ) (refD refQ : ℕ) {pos neg fp fn : ℝ} (hfp : 0 ≤ fp) (hn : 0 ≤ neg)
    (s s' r : ℕ → ℝ) (hr : r refD = 0 ∧ r refQ = 0) (hs : ∀ j, s (abc j) < -pos)
    (hs' : ∀ j, -pos ≤ s' (abc j) ∧ s' (abc j) < -fp) :
    let new : Fin 3 → Disc ℝ := fun _ => .three (ThreePoint.new 8 pos neg fp fn none false)
    (c.controlDisc abc refD refQ (focResetDisc (c.controlDisc abc refD refQ new s r).1) s' r).2 = 7 ∧
    (c.controlDisc abc refD refQ new s' r).2 = 0 := by
  intro new
  have hz : ∀ s : ℕ → ℝ, Motor.t32 (Motor.q ![0, 0] (c.angle s)) = fun _ => 0 := by
    intro s
    funext j
    fin_cases j <;> simp [Motor.t32, Motor.q]
  have k1 : ∀ j, (new j).control (s (abc j)) 0 = (.three { ThreePoint.new 8 pos neg fp fn none false with action := 1, recent := 1 }, 1) := by
    intro j
    have := hs j
    simp only [new, Disc.control, ThreePoint.control, ThreePoint.new]
    rw [if_pos (Or.inl (by linarith))]
  have k2 : ∀ j, (Disc.control (.three { ThreePoint.new 8 pos neg fp fn none false with action := 1, recent := 1 }) (s' (abc j)) 0).2 = 1 := by
    intro j
    have := hs' j
    simp only [Disc.control, ThreePoint.control, ThreePoint.new]
    rw [if_pos (Or.inr ⟨by linarith [this.2], trivial⟩)]
  have k3 : ∀ j, ((new j).control (s' (abc j)) 0).2 = 0 := by
    intro j
    have := hs' j
    simp only [new, Disc.control, ThreePoint.control, ThreePoint.new]
    rw [if_neg (by simp; linarith [this.1]), if_neg (by simp; linarith [this.2])]
  constructor
  · simp only [Foc.controlDisc, Foc.switching, focResetDisc, hr.1, hr.2, hz, k1, k2]
    norm_num
  · simp only [Foc.controlDisc, Foc.switching, hr.1, hr.2, hz, k3]
    norm_num

/-- Such currents. -/
example (c : Foc) : (c.controlDisc ![0, 1, 2] 0 1 (focResetDisc (c.controlDisc ![0, 1, 2] 0 1
    (fun _ => .three (ThreePoint.new 8 (1 / 10) (1 / 10) (1 / 20) (1 / 20) none false)) (fun _ => -1) fun _ => 0).1)
      (fun _ => -3 / 40) fun _ => 0).2 = 7 :=
  (c128_reset_switching_violated c _ 0 1 (by norm_num) (by norm_num) _ _ _ ⟨rfl, rfl⟩ (fun _ => by norm_num)
    fun _ => ⟨by norm_num, by norm_num⟩).1

end GEM.Props
