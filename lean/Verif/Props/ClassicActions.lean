import Mathlib.Tactic.Linarith
import Mathlib.Tactic.NormNum
import Mathlib.Tactic.FieldSimp
import Mathlib.Tactic.Positivity
import Mathlib.Tactic.IntervalCases
import Verif.Spec.Classic

/-!
# C125: the classic controllers answer with actions of the action space
-/

set_option linter.unusedSectionVars false

namespace GEM.Props

open GEM GEM.Classic

section generic

variable {K : Type} [Field K] [LinearOrder K] [IsStrictOrderedRing K]

theorem clip_within {lo hi : K} (h : lo ≤ hi) (x : K) : lo ≤ clip x lo hi ∧ clip x lo hi ≤ hi :=
  ⟨le_min (le_max_right _ _) h, min_le_right _ _⟩

theorem guarded_within {lo hi : K} (h : lo ≤ hi) (y : K) (c : Cont K) (s r : K) :
    lo ≤ (guarded lo hi y c s r).2 ∧ (guarded lo hi y c s r).2 ≤ hi := by
  unfold guarded
  split_ifs with h1
  · exact h1
  · exact clip_within h y

theorem Voltage.ratio {low high nominal limit : K} (h : Voltage low high nominal limit) : nominal / limit ≤ 1 := by
  rw [div_le_one h.pos]; exact h.below

/-- the limits of an action lie in the action space, around zero -/
theorem limits_inside {low high nominal limit : K} (h : Voltage low high nominal limit) :
    low ≤ actionLimit low nominal limit ∧ actionLimit low nominal limit ≤ 0 ∧ 0 ≤ actionLimit high nominal limit ∧
      actionLimit high nominal limit ≤ high := by
  have h0 : 0 ≤ nominal / limit := div_nonneg h.nonneg h.pos.le
  have h1 := Voltage.ratio h
  have l := h.under
  have u := h.upper
  simp only [actionLimit, mul_div_assoc]
  refine ⟨?_, mul_nonpos_of_nonpos_of_nonneg l h0, mul_nonneg u h0, ?_⟩
  · nlinarith
  · nlinarith

/-- the answers of a controller with such limits -/
theorem guarded_inside {low high nominal limit : K} (h : Voltage low high nominal limit) (y : K) (c : Cont K) (s r : K) :
    low ≤ (guarded (actionLimit low nominal limit) (actionLimit high nominal limit) y c s r).2 ∧
      (guarded (actionLimit low nominal limit) (actionLimit high nominal limit) y c s r).2 ≤ high := by
  obtain ⟨h1, h2, h3, h4⟩ := limits_inside h
  obtain ⟨g1, g2⟩ := guarded_within (h2.trans h3) y c s r
  exact ⟨h1.trans g1, g2.trans h4⟩

/-! ## Current control of DC motors -/

/-- C125 for the `ContinuousActionController`: whatever the controllers have integrated, for every state and every reference, `control`
returns an action of the action space.  The motor has a magnet flux or an exciting inductance. -/
theorem c125_continuous (c : ContAction K) {low high nominal limit : K} (hv : Voltage low high nominal limit)
    (hlo : c.lo = actionLimit low nominal limit) (hhi : c.hi = actionLimit high nominal limit)
    (hm : c.psi ≠ 0 ∨ ∃ l, c.l = some l) (st : Cont K × Cont K) (state reference : ℕ → K) :
    (c.exc = none → ∃ st' a, c.control st state reference = (st', .ok a) ∧ InBox [(low, high)] a) ∧
    ∀ (x : Exciting K) (lowE highE nominalE limitE : K), c.exc = some x → Voltage lowE highE nominalE limitE →
      x.lo = actionLimit lowE nominalE limitE → x.hi = actionLimit highE nominalE limitE →
      ∃ st' a, c.control st state reference = (st', .ok a) ∧ InBox [(low, high), (lowE, highE)] a := by
  obtain ⟨f, hf⟩ : ∃ f, c.feedforward state = .ok f := by
    unfold ContAction.feedforward
    by_cases h : c.psi ≠ 0
    · exact ⟨_, by simp only [h, not_false_eq_true, if_true, ne_eq, Except.map]; rfl⟩
    · obtain ⟨l, hl⟩ := hm.resolve_left h
      exact ⟨_, by simp only [h, if_false, hl, Except.map]; rfl⟩
  refine ⟨fun hn => ?_, fun x lowE highE nominalE limitE hx hvE hloE hhiE => ?_⟩
  · refine ⟨_, _, by simp only [ContAction.control, hf, hn]; rfl, ?_⟩
    rw [hlo, hhi]
    exact .cons (guarded_inside hv _ _ _ _) .nil
  · refine ⟨_, _, by simp only [ContAction.control, hf, hx]; rfl, ?_⟩
    rw [hlo, hhi, hloE, hhiE]
    exact .cons (guarded_inside hv _ _ _ _) (.cons (guarded_inside hvE _ _ _ _) .nil)

/-- A discrete controller as the constructors make them for an action space of size `n`, after any calls: its levels are actions. -/
def Levels (n : ℕ) : Disc K → Prop
  | .onOff c => InDiscrete n c.off ∧ InDiscrete n c.action
  | .three c => InDiscrete n c.negative

theorem inDiscrete_of (n : ℕ) (hn : 2 ≤ n) : InDiscrete n 0 ∧ InDiscrete n 1 := by
  unfold InDiscrete
  omega

/-- the constructors, for a controller that is not above another one -/
theorem levels_new (n : ℕ) (hn : 2 ≤ n) (controlE : Bool) (h pos neg fp fn : K) :
    Levels n (.onOff (OnOff.new n h none controlE)) ∧ Levels n (.three (ThreePoint.new n pos neg fp fn none controlE)) := by
  obtain ⟨h0, h1⟩ := inDiscrete_of n hn
  refine ⟨⟨?_, h1⟩, ?_⟩
  · simp only [OnOff.new]
    split_ifs with hc
    · unfold InDiscrete; omega
    · exact h0
  · simp only [Levels, ThreePoint.new]
    split_ifs with hc
    · unfold InDiscrete; omega
    · exact h0

theorem levels_control (n : ℕ) (hn : 2 ≤ n) (c : Disc K) (hc : Levels n c) (s r : K) :
    Levels n (c.control s r).1 ∧ InDiscrete n (c.control s r).2 := by
  obtain ⟨h0, h1⟩ := inDiscrete_of n hn
  cases c with
  | onOff c =>
    obtain ⟨a, b⟩ := hc
    simp only [Disc.control, OnOff.control, Levels]
    split_ifs <;> simp only [a, b, h1, and_self]
  | three c =>
    simp only [Disc.control, ThreePoint.control, Levels] at hc ⊢
    split_ifs <;> simp only [hc, h0, h1, and_self]

theorem levels_reset (n : ℕ) (hn : 2 ≤ n) (c : Disc K) (hc : Levels n c) : Levels n c.reset := by
  obtain ⟨h0, h1⟩ := inDiscrete_of n hn
  cases c with
  | onOff c => exact ⟨hc.1, h1⟩
  | three c => exact hc

/-- a call of a discrete controller -/
inductive DiscCall (K : Type)
  | control (state reference : K)
  | reset

/-- the actions of a series of calls -/
def discActions (c : Disc K) : List (DiscCall K) → List ℤ
  | [] => []
  | .control s r :: l => (c.control s r).2 :: discActions (c.control s r).1 l
  | .reset :: l => discActions c.reset l

theorem levels_actions (n : ℕ) (hn : 2 ≤ n) (calls : List (DiscCall K)) : ∀ c : Disc K, Levels n c →
    ∀ a ∈ discActions c calls, InDiscrete n a := by
  induction calls with
  | nil => simp [discActions]
  | cons x l ih =>
    intro c hc a ha
    cases x with
    | control s r =>
      rcases List.mem_cons.1 ha with ha | ha
      · rw [ha]; exact (levels_control n hn c hc s r).2
      · exact ih _ (levels_control n hn c hc s r).1 a ha
    | reset => exact ih _ (levels_reset n hn c hc) a ha

/-- C125 for on-off and three-point controllers: made for an action space with `n` actions, as an inner stage, all their answers in any
history of calls are actions. -/
theorem c125_discrete (n : ℕ) (hn : 2 ≤ n) (controlE : Bool) (h pos neg fp fn : K) (calls : List (DiscCall K)) :
    (∀ a ∈ discActions (.onOff (OnOff.new n h none controlE)) calls, InDiscrete n a) ∧
    ∀ a ∈ discActions (.three (ThreePoint.new n pos neg fp fn none controlE)) calls, InDiscrete n a :=
  ⟨levels_actions n hn calls _ (levels_new n hn controlE h pos neg fp fn).1,
    levels_actions n hn calls _ (levels_new n hn controlE h pos neg fp fn).2⟩

/-- Both kinds of controllers use all their levels. -/
example : discActions (.three (ThreePoint.new 4 (1 / 50) (1 / 50) (1 / 100) (1 / 100 : ℚ) none false))
    [.control 0 1, .control 0 0, .control 0 (-1)] = [1, 0, 2] := by norm_num [discActions, Disc.control, ThreePoint.control, ThreePoint.new]

/-- The limits of a voltage of 60 V with a nominal value of 48 V in a one-quadrant converter. -/
example : Voltage (0 : ℚ) 1 48 60 := ⟨by norm_num, by norm_num, by norm_num, by norm_num, by norm_num⟩

/-- A saturated call: reference 1 at standstill, the answer is the upper limit of the action. -/
example : ((ContAction.mk 1 0 1 0 (actionLimit 0 48 60) (actionLimit 1 48 60) (1 / 6) none 400 100 60 none : ContAction ℚ).control
    (Cont.new 10 5 none (1 / 10000), Cont.new 0 0 none 1) (fun _ => 0) (fun _ => 1)).2 = .ok [4 / 5] := by
  norm_num [ContAction.control, ContAction.feedforward, Except.map, guarded, Cont.control, Cont.new, actionLimit, clip]

/-- On a motor running at nominal speed the compensation of the EMF alone exceeds the voltage: the answer is clipped as well. -/
example : ((ContAction.mk 1 0 1 0 (actionLimit 0 48 60) (actionLimit 1 48 60) (1 / 6) none 400 100 60 none : ContAction ℚ).control
    (Cont.new 10 5 none (1 / 10000), Cont.new 0 0 none 1) (fun i => if i = 0 then 1 else 0) (fun _ => 0)).2 = .ok [4 / 5] := by
  norm_num [ContAction.control, ContAction.feedforward, Except.map, guarded, Cont.control, Cont.new, actionLimit, clip]

/-! ## Cascades -/

/-- C125 for the `CascadedController` with continuous actions: whatever the stages have stored, and whatever the outer stage is. -/
theorem c125_cascade (c : Cascade K) {low high nominal limit : K} (hv : Voltage low high nominal limit)
    (hlo : c.lo = actionLimit low nominal limit) (hhi : c.hi = actionLimit high nominal limit) (eps : K) (inner : Cont K)
    (outer : Stage K) (state reference : ℕ → K) :
    InBox [(low, high)] [(c.control eps (.cont inner, outer) state reference).2] := by
  refine .cons ?_ .nil
  simp only [Cascade.control, Cascade.inner, hlo, hhi]
  exact guarded_inside hv _ _ _ _

/-- The references that an outer stage hands to the stage below are inside the limits of the state below, if it is a continuous stage. -/
theorem c125_reference (c : Cont K) {lo hi : K} (h : lo ≤ hi) (lower state reference first : K) :
    lo ≤ ((Stage.cont c).outer lo hi lower state reference first).2 ∧ ((Stage.cont c).outer lo hi lower state reference first).2 ≤ hi :=
  guarded_within h _ _ _ _

/-- with discrete actions -/
theorem c125_cascade_discrete (c : Cascade K) (n : ℕ) (hn : 2 ≤ n) (eps : K) (inner : Disc K) (hi : Levels n inner) (outer : Stage K)
    (state reference : ℕ → K) :
    ∃ a : ℤ, (c.control eps (.disc inner, outer) state reference).2 = a ∧ InDiscrete n a :=
  ⟨_, rfl, (levels_control n hn inner hi _ _).2⟩

/-- clipping to limits around zero moves towards zero -/
theorem clip_towards {lo hi low high x : K} (h1 : lo ≤ 0) (h2 : 0 ≤ hi) (h3 : low ≤ 0) (h4 : 0 ≤ high) (hx : low ≤ x ∧ x ≤ high) :
    low ≤ clip x lo hi ∧ clip x lo hi ≤ high := by
  refine ⟨?_, ?_⟩
  · exact le_min (hx.1.trans (le_max_left _ _)) (h3.trans h2)
  · exact (min_le_left _ _).trans (max_le hx.2 (h1.trans h4))

/-- C125 for the cascade of the externally excited motor with continuous actions: if the reference of the torque that the inner stages get
(the one of the environment, or what the speed controller says) leads to an exciting current other than 0, the action is in the action
space.  Missing for C125: an exciting current of 0 (`c125_nan_violated`). -/
theorem c125_excited_partial (c : Cascade K) (x : Excited K) {low high nominal limit : K} (hv : Voltage low high nominal limit)
    (hlo : c.lo = actionLimit low nominal limit) (hhi : c.hi = actionLimit high nominal limit) {lowE highE nominalE limitE : K}
    (hvE : Voltage lowE highE nominalE limitE) (hloE : x.lo = actionLimit lowE nominalE limitE)
    (hhiE : x.hi = actionLimit highE nominalE limitE) (eps : K) (root : K → K) (inner exciting : Cont K) (outer : Stage K)
    (state reference : ℕ → K)
    (ht : ∃ i, (x.currents c.l root (if x.speed then (outer.outer x.tLo x.tHi (state x.torqueIdx) (state c.refState)
      (reference c.refIdx) (reference 0)).2 else reference c.refIdx)).1 = some i) :
    InBoxNum [(low, high), (lowE, highE)] (x.control c eps root (.cont inner, outer, .cont exciting) state reference).2 := by
  obtain ⟨i, hi⟩ := ht
  obtain ⟨e1, e2, e3, e4⟩ := limits_inside hvE
  have key : (x.currents c.l root (if x.speed = true then outer.outer x.tLo x.tHi (state x.torqueIdx) (state c.refState)
      (reference c.refIdx) (reference 0) else (outer, reference c.refIdx)).2).1 = some i := by
    rw [← hi]; cases x.speed <;> rfl
  refine .cons ?_ (.cons ?_ .nil)
  · simp only [key]
    refine ⟨_, rfl, ?_⟩
    rw [hloE, hhiE]
    refine clip_towards e2 e3 hv.under hv.upper ?_
    simp only [Cascade.inner, hlo, hhi]
    exact guarded_inside hv _ _ _ _
  · refine ⟨_, rfl, ?_⟩
    rw [hloE, hhiE]
    obtain ⟨g1, g2⟩ := clip_within (e2.trans e3) (exciting.control (state c.ieIdx)
      (if x.refE = 0 then (x.currents c.l root (if x.speed = true then outer.outer x.tLo x.tHi (state x.torqueIdx) (state c.refState)
      (reference c.refIdx) (reference 0) else (outer, reference c.refIdx)).2).2 else reference x.refE)).2
    exact ⟨e1.trans g1, g2.trans e4⟩

/-- the currents are numbers if the exciting current does not vanish -/
theorem currents_number (x : Excited K) (l : K) (root : K → K) (torque : K)
    (h : l * clip (root (x.ra * (torque * x.torqueLimit) ^ 2 / (x.re * l ^ 2))) (x.ieLow * x.ieLimit) (x.ieHigh * x.ieLimit) ≠ 0) :
    ∃ i, (x.currents l root torque).1 = some i := by
  unfold Excited.currents
  simp only [if_pos h]
  exact ⟨_, rfl⟩

/-- C125 is violated by the cascade of the externally excited motor: for a reference of the torque of 0, which is the one of the
environment for torque control and the answer of the speed controller for speed control, the action for the armature is `nan`.  It holds
for all limits and parameters, as soon as the exciting current may be 0. -/
theorem c125_nan_violated (c : Cascade K) (x : Excited K) (eps : K) (root : K → K) (hroot : root 0 = 0) (hlow : x.ieLow * x.ieLimit ≤ 0)
    (hhigh : 0 ≤ x.ieHigh * x.ieLimit) (inner exciting : Cont K) (outer : Stage K) (state reference : ℕ → K)
    (ht : (if x.speed then (outer.outer x.tLo x.tHi (state x.torqueIdx) (state c.refState) (reference c.refIdx) (reference 0)).2
      else reference c.refIdx) = 0) (box : List (K × K)) :
    (∃ a, (x.control c eps root (.cont inner, outer, .cont exciting) state reference).2 = [none, a]) ∧
    ¬ InBoxNum box (x.control c eps root (.cont inner, outer, .cont exciting) state reference).2 := by
  have key : (if x.speed = true then outer.outer x.tLo x.tHi (state x.torqueIdx) (state c.refState)
      (reference c.refIdx) (reference 0) else (outer, reference c.refIdx)).2 = 0 := by
    rw [← ht]; cases x.speed <;> rfl
  have hz : (x.currents c.l root 0).1 = none := by
    unfold Excited.currents
    have : clip (root (x.ra * (0 * x.torqueLimit) ^ 2 / (x.re * c.l ^ 2))) (x.ieLow * x.ieLimit) (x.ieHigh * x.ieLimit) = 0 := by
      simp only [zero_mul, ne_eq, OfNat.ofNat_ne_zero, not_false_eq_true, zero_pow, mul_zero, zero_div, hroot, clip]
      rw [max_eq_left hlow, min_eq_left hhigh]
    simp only [this]
    simp
  have main : ∃ a, (x.control c eps root (.cont inner, outer, .cont exciting) state reference).2 = [none, a] := by
    simp only [Excited.control, key, hz, Cascade.innerNum, clipNum, Option.map_none]
    exact ⟨_, rfl⟩
  refine ⟨main, ?_⟩
  obtain ⟨a, ha⟩ := main
  rw [ha]
  intro h
  cases h with
  | cons h1 h2 =>
    obtain ⟨y, e, -⟩ := h1
    cases e

/-- Such a case: the first call for a motor at rest whose reference of the speed is 0. -/
example : ∃ (c : Cascade ℚ) (x : Excited ℚ) (a : Num ℚ), (x.control c (1 / 1000000) id
      (.cont (Cont.new 5 5 none (1 / 10000)), .cont (Cont.new 5 5 none (1 / 10000)), .cont (Cont.new 5 5 none (1 / 10000)))
      (fun _ => 0) (fun _ => 0)).2 = [none, a] ∧ x.tLo < 0 ∧ 0 < x.tHi := by
  obtain ⟨a, ha⟩ := (c125_nan_violated (⟨0, 0, 2, 3, 0, -1, 1, -1, 1, 0, 1, 1, 1, 1⟩ : Cascade ℚ)
    ⟨true, 1, -1, 1, 38, 210, 15, -1, 1, -1, 1, 1, 1, -1, 1, 0⟩ (1 / 1000000) id rfl (by norm_num) (by norm_num)
    (Cont.new 5 5 none (1 / 10000)) (Cont.new 5 5 none (1 / 10000)) (.cont (Cont.new 5 5 none (1 / 10000))) (fun _ => 0) (fun _ => 0)
    (by norm_num [Stage.outer, Cont.control, Cont.new, guarded]) []).1
  exact ⟨_, _, a, ha, by norm_num, by norm_num⟩

/-- The action is in the action space in a case with torque. -/
example : ∃ (c : Cascade ℚ) (x : Excited ℚ) (root : ℚ → ℚ), root 0 = 0 ∧
    InBoxNum [(-1, 1), (-1, 1)] (x.control c (1 / 1000000) root
      (.cont (Cont.new 5 5 none (1 / 10000)), .cont (Cont.new 5 5 none (1 / 10000)), .cont (Cont.new 5 5 none (1 / 10000)))
      (fun _ => 1 / 2) (fun _ => 3 / 4)).2 :=
  ⟨⟨0, 0, 2, 3, 0, -1, 1, -1, 1, 0, 1, 1, 1, 1⟩, ⟨false, 1, -1, 1, 38, 210, 15, -1, 1, -1, 1, 1, 1, -1, 1, 0⟩, id, rfl,
    c125_excited_partial _ _ (low := -1) (high := 1) (nominal := 1) (limit := 1) ⟨by norm_num, by norm_num, by norm_num, by norm_num, le_rfl⟩
      (by norm_num [actionLimit]) (by norm_num [actionLimit]) (lowE := -1) (highE := 1) (nominalE := 1) (limitE := 1)
      ⟨by norm_num, by norm_num, by norm_num, by norm_num, le_rfl⟩ (by norm_num [actionLimit]) (by norm_num [actionLimit]) _ _ _ _ _ _ _
      (currents_number _ _ _ _ (by norm_num [clip]))⟩

/-- with discrete actions: both circuits get one of their actions, also for a reference of 0 -/
theorem c125_excited_discrete (c : Cascade K) (x : Excited K) (n m : ℕ) (hn : 2 ≤ n) (hm : 2 ≤ m) (eps : K) (root : K → K)
    (inner exciting : Disc K) (hi : Levels n inner) (he : Levels m exciting) (outer : Stage K) (state reference : ℕ → K) :
    ∃ a b : ℤ, (x.control c eps root (.disc inner, outer, .disc exciting) state reference).2 = [some (a : K), some (b : K)] ∧
      InDiscrete n a ∧ InDiscrete m b := by
  simp only [Excited.control]
  generalize (x.currents c.l root _) = r
  cases hr : r.1 with
  | some i =>
    exact ⟨_, _, rfl, (levels_control n hn inner hi _ _).2, (levels_control m hm exciting he _ _).2⟩
  | none =>
    cases inner with
    | onOff y => exact ⟨_, _, rfl, hi.2, (levels_control m hm exciting he _ _).2⟩
    | three y => exact ⟨0, _, by simp only [Cascade.innerNum, Int.cast_zero]; rfl, (inDiscrete_of n hn).1, (levels_control m hm exciting he _ _).2⟩

/-- C125 for the `DiscreteActionController` -/
theorem c125_discrete_action (c : DiscAction) (n m : ℕ) (hn : 2 ≤ n) (hm : 2 ≤ m) (st : Disc K × Disc K) (hs : Levels n st.1)
    (he : Levels m st.2) (state reference : ℕ → K) :
    List.Forall₂ InDiscrete (if c.refE = none then [n] else [n, m]) (c.control st state reference).2 ∧
      Levels n (c.control st state reference).1.1 ∧ Levels m (c.control st state reference).1.2 := by
  obtain ⟨h1, h2⟩ := levels_control n hn st.1 hs (state c.refState) (reference c.refIdx)
  unfold DiscAction.control
  cases hc : c.refE with
  | none => exact ⟨.cons h2 .nil, h1, he⟩
  | some r =>
    obtain ⟨g1, g2⟩ := levels_control m hm st.2 he (state c.iIdx) (reference r)
    exact ⟨.cons h2 (.cons g2 .nil), h1, g1⟩

end generic

/-! ## Three phases -/

/-- an action for three phases in `Box(lo, hi, (3,))` -/
def InCube (lo hi : ℝ) (a : Fin 3 → ℝ) : Prop := ∀ j, lo ≤ a j ∧ a j ≤ hi

/-- C125 for the field oriented controllers with continuous actions (synchronous and induction motors, current, torque and speed control):
for all states of the controllers, the overlaid controllers and the conversion of torques, and whatever the conversion answers. -/
theorem c125_foc {θ : Type} (c : Foc) (im : ImFoc) (h : c.lo ≤ c.hi) (him : im.lo ≤ im.hi) (s reference : ℕ → ℝ) :
    (∀ refD refQ st, InCube c.lo c.hi (c.control refD refQ st s reference).2) ∧
    (∀ task o (conv : Conversion θ) refD st, InCube c.lo c.hi (c.cascaded task o conv refD st s reference).2) ∧
    (∀ refD refQ st, InCube im.lo im.hi (im.control refD refQ st s reference).2) ∧
    ∀ speed o (conv : ℝ → Conversion θ) st, InCube im.lo im.hi (im.cascaded speed o conv st s reference).2 :=
  ⟨fun _ _ _ _ => clip_within h _, fun _ _ _ _ _ _ => clip_within h _, fun _ _ _ _ => clip_within him _,
    fun _ _ _ _ _ => clip_within him _⟩

/-- C125 for the field oriented controllers with discrete actions and on-off controllers, as the automatic design chooses them: in any
state that on-off controllers made for 8 actions can have, the answer is one of the 8 actions. -/
theorem c125_switching {θ : Type} (c : Foc) (abc : Fin 3 → ℕ) (st : Fin 3 → OnOff ℝ) (hst : ∀ j, Levels 2 (.onOff (st j)))
    (s reference : ℕ → ℝ) :
    (∀ refD refQ, InDiscrete 8 (c.controlDisc abc refD refQ (fun j => .onOff (st j)) s reference).2 ∧
      ∀ j, Levels 2 ((c.controlDisc abc refD refQ (fun j => .onOff (st j)) s reference).1 j)) ∧
    ∀ task o (conv : Conversion θ) refD ov, InDiscrete 8 (c.cascadedDisc abc task o conv refD ((fun j => .onOff (st j)), ov) s reference).2 ∧
      ∀ j, Levels 2 ((c.cascadedDisc abc task o conv refD ((fun j => .onOff (st j)), ov) s reference).1.1 j) := by
  have key : ∀ rd rq, InDiscrete 8 (c.switching abc (fun j => .onOff (st j)) s rd rq).2 ∧
      ∀ j, Levels 2 ((c.switching abc (fun j => .onOff (st j)) s rd rq).1 j) := by
    intro rd rq
    have h := fun j => levels_control 2 le_rfl (.onOff (st j)) (hst j) (s (abc j)) (Motor.t32 (Motor.q ![rd, rq] (c.angle s)) j)
    refine ⟨?_, fun j => (h j).1⟩
    have h0 := (h 0).2
    have h1 := (h 1).2
    have h2 := (h 2).2
    simp only [InDiscrete, Foc.switching] at h0 h1 h2 ⊢
    omega
  exact ⟨fun _ _ => key _ _, fun _ _ _ _ _ => key _ _⟩

/-- on-off controllers made for the 8 actions of a bridge -/
theorem levels_bridge (h : ℝ) : Levels 2 (.onOff (OnOff.new 8 h none false)) := by
  simp [Levels, OnOff.new, InDiscrete]

/-- C125 is violated by field oriented control with three-point controllers, which can be given as stages: the level of a negative
action is 2, so that with all three currents above their references the action is 14, and the bridge has 8 actions. -/
theorem c125_three_point_violated (c : Foc) (abc : Fin 3 → ℕ) (pos neg fp fn : ℝ) (hn : 0 ≤ neg) (hp : 0 ≤ pos)
    (s reference : ℕ → ℝ) (refD refQ : ℕ) (hr : reference refD = 0 ∧ reference refQ = 0) (hs : ∀ j, neg < s (abc j)) :
    (c.controlDisc abc refD refQ (fun _ => .three (ThreePoint.new 8 pos neg fp fn none false)) s reference).2 = 14 ∧
    ¬ InDiscrete 8 (c.controlDisc abc refD refQ (fun _ => .three (ThreePoint.new 8 pos neg fp fn none false)) s reference).2 := by
  have hz : Motor.t32 (Motor.q ![0, 0] (c.angle s)) = fun _ => 0 := by
    funext j
    fin_cases j <;> simp [Motor.t32, Motor.q]
  have key : ∀ j, (Disc.control (.three (ThreePoint.new 8 pos neg fp fn none false)) (s (abc j)) 0).2 = 2 := by
    intro j
    have h1 := hs j
    simp only [Disc.control, ThreePoint.control, ThreePoint.new]
    rw [if_neg (by simp; linarith), if_pos (Or.inl (by linarith))]
    simp
  have main : (c.controlDisc abc refD refQ (fun _ => .three (ThreePoint.new 8 pos neg fp fn none false)) s reference).2 = 14 := by
    simp only [Foc.controlDisc, Foc.switching, hr.1, hr.2, hz, key]
    norm_num
  refine ⟨main, ?_⟩
  rw [main]
  simp [InDiscrete]

/-- Such a case. -/
example (c : Foc) : (c.controlDisc ![0, 1, 2] 0 1 (fun _ => .three (ThreePoint.new 8 (1 / 50) (1 / 50) (1 / 100) (1 / 100) none false))
    (fun _ => 1) (fun _ => 0)).2 = 14 :=
  (c125_three_point_violated c _ _ _ _ _ (by norm_num) (by norm_num) _ _ _ _ ⟨rfl, rfl⟩ (fun _ => by norm_num)).1

end GEM.Props
