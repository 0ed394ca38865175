import Mathlib.Tactic.Linarith
import Mathlib.Tactic.NormNum
import Mathlib.Tactic.Ring
import Mathlib.Tactic.FieldSimp
import Mathlib.Tactic.Positivity
import Mathlib.Tactic.FinCases
import Mathlib.Algebra.Order.AbsoluteValue.Basic
import Verif.Props.ClassicActions

/-!
# C126: the integrators of the classic controllers do not wind up
-/

set_option linter.unusedSectionVars false

namespace GEM.Props

open GEM GEM.Classic

section generic

variable {K : Type} [Field K] [LinearOrder K] [IsStrictOrderedRing K]

/-- gains and sampling time -/
structure Gains (K : Type) where
  p : K
  i : K
  d : Option K
  tau : K

/-- a controller with these gains -/
def Has (g : Gains K) (c : Cont K) : Prop := c.p = g.p ∧ c.i = g.i ∧ c.d = g.d ∧ c.tau = g.tau

/-- the controller of the constructor -/
def Gains.new (g : Gains K) : Cont K := Cont.new g.p g.i g.d g.tau

/-- A bound for the integral part: `M` bounds the limits, `F` what is added to the output, `E` states and references. -/
def partBound (g : Gains K) (M F E : K) : K :=
  M + F + |g.p| * (2 * E) + (match g.d with | none => 0 | some d => |d| * (4 * E) / |g.tau|) + |g.i| * |g.tau| * (4 * E)

/-- What holds all the time: the integral part and the stored error are bounded. -/
def Kept (g : Gains K) (M F E : K) (c : Cont K) : Prop :=
  Has g c ∧ |c.i * c.integrated| ≤ partBound g M F E ∧ |c.eOld| ≤ 2 * E

theorem partBound_nonneg (g : Gains K) {M F E : K} (hM : 0 ≤ M) (hF : 0 ≤ F) (hE : 0 ≤ E) : 0 ≤ partBound g M F E := by
  unfold partBound
  cases g.d <;> dsimp only <;> positivity

theorem kept_new (g : Gains K) {M F E : K} (hM : 0 ≤ M) (hF : 0 ≤ F) (hE : 0 ≤ E) : Kept g M F E g.new := by
  refine ⟨⟨rfl, rfl, rfl, rfl⟩, ?_, ?_⟩
  · simp only [Gains.new, Cont.new, mul_zero, abs_zero]
    exact partBound_nonneg g hM hF hE
  · simp only [Gains.new, Cont.new, abs_zero]; linarith

theorem kept_reset {g : Gains K} {M F E : K} (hM : 0 ≤ M) (hF : 0 ≤ F) (hE : 0 ≤ E) {c : Cont K} (h : Kept g M F E c) :
    Kept g M F E c.reset := by
  obtain ⟨⟨h1, h2, h3, h4⟩, -, h6⟩ := h
  have h0 := partBound_nonneg g hM hF hE
  obtain ⟨p, i, d, t, n, o⟩ := c
  cases d with
  | none =>
    refine ⟨⟨h1, h2, h3, h4⟩, ?_, h6⟩
    simpa [Cont.reset] using h0
  | some d =>
    refine ⟨⟨h1, h2, h3, h4⟩, ?_, ?_⟩
    · simpa [Cont.reset] using h0
    · simpa [Cont.reset] using hE

theorem abs_diff {a b E : K} (ha : |a| ≤ E) (hb : |b| ≤ E) : |a - b| ≤ 2 * E := by
  have := abs_sub a b
  linarith

/-- the output of a controller, with what is left of it when the proportional and the derivative part are taken away -/
theorem control_parts {g : Gains K} {E : K} {c : Cont K} (hc : Has g c) (ho : |c.eOld| ≤ 2 * E) {s r : K} (he : |r - s| ≤ 2 * E) :
    ∃ x, (c.control s r).2 = c.i * c.integrated + x ∧
      |x - c.i * ((r - s) * c.tau)| ≤ |g.p| * (2 * E) + (match g.d with | none => 0 | some d => |d| * (4 * E) / |g.tau|) ∧
      Has g (c.control s r).1 ∧ (c.control s r).1.integrated = c.integrated ∧ |(c.control s r).1.eOld| ≤ 2 * E := by
  obtain ⟨h1, h2, h3, h4⟩ := hc
  have hp : |g.p * (r - s)| ≤ |g.p| * (2 * E) := by
    rw [abs_mul]; exact mul_le_mul_of_nonneg_left he (abs_nonneg _)
  unfold Cont.control
  rw [← h3]
  cases hd : c.d with
  | none =>
    refine ⟨c.p * (r - s) + c.i * ((r - s) * c.tau), by ring, ?_, ⟨h1, h2, h3, h4⟩, rfl, ho⟩
    rw [h1]
    simpa using hp
  | some d =>
    refine ⟨c.p * (r - s) + c.i * ((r - s) * c.tau) + d * (r - s - c.eOld) / c.tau, by ring, ?_, ⟨h1, h2, by rw [← h3, hd], h4⟩, rfl, he⟩
    have hq : |d * (r - s - c.eOld) / c.tau| ≤ |d| * (4 * E) / |g.tau| := by
      rw [abs_div, abs_mul, h4]
      refine div_le_div_of_nonneg_right (mul_le_mul_of_nonneg_left ?_ (abs_nonneg _)) (abs_nonneg _)
      have := abs_sub (r - s) c.eOld
      linarith
    rw [h1]
    have e : g.p * (r - s) + c.i * ((r - s) * c.tau) + d * (r - s - c.eOld) / c.tau - c.i * ((r - s) * c.tau)
        = g.p * (r - s) + d * (r - s - c.eOld) / c.tau := by ring
    rw [e]
    exact (abs_add_le _ _).trans (add_le_add hp hq)

theorem has_integrate {g : Gains K} {c : Cont K} (h : Has g c) (s r : K) : Has g (c.integrate s r) := h

/-- an integration keeps the bound if the output, together with what is added to it, is bounded -/
theorem kept_integrate {g : Gains K} {M F E : K} {c : Cont K} (h : Kept g M F E c) {s r s' r' f y : K} (he : |r - s| ≤ 2 * E)
    (he' : |r' - s'| ≤ 2 * E) (hf : |f| ≤ F) (hy : (c.control s r).2 + f = y) (hM : |y| ≤ M) :
    Kept g M F E ((c.control s r).1.integrate s' r') := by
  obtain ⟨hc, -, ho⟩ := h
  obtain ⟨x, hx, hb, g1, g2, g3⟩ := control_parts hc ho he
  refine ⟨has_integrate g1 _ _, ?_, g3⟩
  have hi : (c.control s r).1.i = g.i := g1.2.1
  have ht : (c.control s r).1.tau = g.tau := g1.2.2.2
  have e : ((c.control s r).1.integrate s' r').i * ((c.control s r).1.integrate s' r').integrated
      = y - f - (x - c.i * ((r - s) * c.tau)) + g.i * g.tau * ((r' - s') - (r - s)) := by
    simp only [Cont.integrate, hi, g2, ht]
    rw [← hy, hx, hc.2.1, hc.2.2.2]
    ring
  rw [e]
  have h5 : |g.i * g.tau * ((r' - s') - (r - s))| ≤ |g.i| * |g.tau| * (4 * E) := by
    rw [abs_mul, abs_mul]
    refine mul_le_mul_of_nonneg_left ?_ (by positivity)
    have := abs_sub (r' - s') (r - s)
    linarith
  have h6 := abs_add_le (y - f - (x - c.i * ((r - s) * c.tau))) (g.i * g.tau * ((r' - s') - (r - s)))
  have h7 := abs_sub (y - f) (x - c.i * ((r - s) * c.tau))
  have h8 := abs_sub y f
  unfold partBound
  linarith

theorem kept_control {g : Gains K} {M F E : K} {c : Cont K} (h : Kept g M F E c) {s r : K} (he : |r - s| ≤ 2 * E) :
    Kept g M F E (c.control s r).1 := by
  obtain ⟨hc, hi, ho⟩ := h
  obtain ⟨x, -, -, g1, g2, g3⟩ := control_parts hc ho he
  refine ⟨g1, ?_, g3⟩
  rw [g1.2.1, g2, ← hc.2.1]
  exact hi

theorem kept_guarded {g : Gains K} {M F E : K} {c : Cont K} (h : Kept g M F E c) {s r s' r' f lo hi : K} (he : |r - s| ≤ 2 * E)
    (he' : |r' - s'| ≤ 2 * E) (hf : |f| ≤ F) (hlo : -M ≤ lo) (hhi : hi ≤ M) :
    Kept g M F E (guarded lo hi ((c.control s r).2 + f) (c.control s r).1 s' r').1 := by
  unfold guarded
  split_ifs with hy
  · exact kept_integrate h he he' hf rfl (abs_le.2 ⟨hlo.trans hy.1, hy.2.trans hhi⟩)
  · exact kept_control h he

/-! ## Histories -/

/-- a call of a controller -/
inductive Asked (K : Type)
  | control (state reference : ℕ → K)
  | reset

/-- all numbers in the calls are bounded -/
def Asked.Bounded (E : K) : Asked K → Prop
  | .control s r => ∀ j, |s j| ≤ E ∧ |r j| ≤ E
  | .reset => True

/-- the controllers after a series of calls -/
def contAfter (c : ContAction K) : Cont K × Cont K → List (Asked K) → Cont K × Cont K
  | st, [] => st
  | st, .control s r :: l => contAfter c (c.control st s r).1 l
  | st, .reset :: l => contAfter c (c.reset st) l

/-- the integral part of the output -/
def iPart (c : Cont K) : K := c.i * c.integrated

theorem contAction_kept (c : ContAction K) (g e : Gains K) {M F E : K} (hM : 0 ≤ M) (hF : 0 ≤ F) (hE : 0 ≤ E) (hlo : -M ≤ c.lo)
    (hhi : c.hi ≤ M) (hx : ∀ x, c.exc = some x → -M ≤ x.lo ∧ x.hi ≤ M)
    (hf : ∀ s f, (∀ j, |s j| ≤ E) → c.feedforward s = .ok f → |f| ≤ F) (calls : List (Asked K)) :
    ∀ st : Cont K × Cont K, Kept g M F E st.1 → Kept e M F E st.2 → (∀ a ∈ calls, a.Bounded E) →
      Kept g M F E (contAfter c st calls).1 ∧ Kept e M F E (contAfter c st calls).2 := by
  induction calls with
  | nil => exact fun st h1 h2 _ => ⟨h1, h2⟩
  | cons a l ih =>
    intro st h1 h2 hb
    have hl : ∀ a ∈ l, a.Bounded E := fun b hb' => hb b (List.mem_cons_of_mem _ hb')
    cases a with
    | reset =>
      refine ih _ (kept_reset hM hF hE h1) ?_ hl
      simp only [ContAction.reset]
      split_ifs
      · exact kept_reset hM hF hE h2
      · exact h2
    | control s r =>
      have hsr := hb _ List.mem_cons_self
      have he : |r c.refIdx - s c.refState| ≤ 2 * E := abs_diff (hsr _).2 (hsr _).1
      suffices key : Kept g M F E (c.control st s r).1.1 ∧ Kept e M F E (c.control st s r).1.2 from ih _ key.1 key.2 hl
      unfold ContAction.control
      cases hff : c.feedforward s with
      | error x => exact ⟨kept_control h1 he, h2⟩
      | ok f =>
        have hfb := hf s f (fun j => (hsr j).1) hff
        cases hc : c.exc with
        | none => exact ⟨kept_guarded h1 he he hfb hlo hhi, h2⟩
        | some x =>
          have he2 : |r x.refIdx - s c.iIdx| ≤ 2 * E := abs_diff (hsr _).2 (hsr _).1
          refine ⟨kept_guarded h1 he he hfb hlo hhi, ?_⟩
          have := kept_guarded (f := 0) h2 he2 he2 (by rw [abs_zero]; exact hF) (hx x hc).1 (hx x hc).2
          rwa [add_zero] at this

/-- the EMF compensation is bounded for bounded states -/
theorem feedforward_bounded (c : ContAction K) {E : K} (hE : 0 ≤ E) :
    ∃ F, 0 ≤ F ∧ ∀ s f, (∀ j, |s j| ≤ E) → c.feedforward s = .ok f → |f| ≤ F := by
  have key : ∀ (P : K), 0 ≤ P → ∀ w x : K, |w| ≤ E → |x| ≤ P → |w * c.nomOmega * x / c.nomU| ≤ E * |c.nomOmega| * P / |c.nomU| := by
    intro P hP w x hw hx
    rw [abs_div, abs_mul, abs_mul]
    refine div_le_div_of_nonneg_right ?_ (abs_nonneg _)
    exact mul_le_mul (mul_le_mul_of_nonneg_right hw (abs_nonneg _)) hx (abs_nonneg _) (by positivity)
  by_cases h : c.psi ≠ 0
  · refine ⟨E * |c.nomOmega| * |c.psi| / |c.nomU|, by positivity, fun s f hs hf => ?_⟩
    simp only [ContAction.feedforward, if_pos h, Except.map, Except.ok.injEq] at hf
    rw [← hf]
    exact key _ (abs_nonneg _) _ _ (hs _) le_rfl
  · cases hl : c.l with
    | none =>
      refine ⟨0, le_rfl, fun s f hs hf => ?_⟩
      simp only [ContAction.feedforward, if_neg h, hl, Except.map] at hf
      cases hf
    | some l =>
      refine ⟨E * |c.nomOmega| * (|l| * E * |c.nomI|) / |c.nomU|, by positivity, fun s f hs hf => ?_⟩
      simp only [ContAction.feedforward, if_neg h, hl, Except.map, Except.ok.injEq] at hf
      rw [← hf]
      refine key _ (by positivity) _ _ (hs _) ?_
      rw [abs_mul, abs_mul]
      exact mul_le_mul_of_nonneg_right (mul_le_mul_of_nonneg_left (hs _) (abs_nonneg _)) (abs_nonneg _)

/-- C126 for the `ContinuousActionController`: for every controller, all gains and every bound of states and references there is a bound
for the integral parts of both controllers, the same for all histories of calls, however long they are. -/
theorem c126_continuous (c : ContAction K) (g e : Gains K) (E : K) (hE : 0 ≤ E) :
    ∃ B, ∀ calls : List (Asked K), (∀ a ∈ calls, a.Bounded E) →
      |iPart (contAfter c (g.new, e.new) calls).1| ≤ B ∧ |iPart (contAfter c (g.new, e.new) calls).2| ≤ B := by
  obtain ⟨F, hF, hf⟩ := feedforward_bounded c hE
  obtain ⟨M, hM, h1, h2, h3⟩ : ∃ M, 0 ≤ M ∧ -M ≤ c.lo ∧ c.hi ≤ M ∧ ∀ x, c.exc = some x → -M ≤ x.lo ∧ x.hi ≤ M := by
    cases hx : c.exc with
    | none =>
      refine ⟨|c.lo| + |c.hi|, by positivity, ?_, ?_, by simp⟩
      · have := neg_abs_le c.lo; have := abs_nonneg c.hi; linarith
      · have := le_abs_self c.hi; have := abs_nonneg c.lo; linarith
    | some x =>
      have := neg_abs_le c.lo
      have := le_abs_self c.hi
      have := neg_abs_le x.lo
      have := le_abs_self x.hi
      have := abs_nonneg c.lo
      have := abs_nonneg c.hi
      have := abs_nonneg x.lo
      have := abs_nonneg x.hi
      refine ⟨|c.lo| + |c.hi| + (|x.lo| + |x.hi|), by positivity, by linarith, by linarith, fun y hy => ?_⟩
      cases hy
      exact ⟨by linarith, by linarith⟩
  refine ⟨max (partBound g M F E) (partBound e M F E), fun calls hb => ?_⟩
  obtain ⟨k1, k2⟩ := contAction_kept c g e hM hF hE h1 h2 h3 hf calls (g.new, e.new) (kept_new g hM hF hE) (kept_new e hM hF hE) hb
  exact ⟨k1.2.1.trans (le_max_left _ _), k2.2.1.trans (le_max_right _ _)⟩

/-- Without the limits the integrator of the same controller grows with the number of calls: the bound is due to the guard. -/
example (n : ℕ) : ((fun c : Cont ℚ => c.integrate 0 1)^[n] (Cont.new 5 5 none (1 / 10000))).integrated = n / 10000 := by
  induction n with
  | zero => simp [Cont.new]
  | succ n ih =>
    rw [Function.iterate_succ', Function.comp_apply]
    have ht : ((fun c : Cont ℚ => c.integrate 0 1)^[n] (Cont.new 5 5 none (1 / 10000))).tau = 1 / 10000 := by
      clear ih
      induction n with
      | zero => rfl
      | succ n ih => rw [Function.iterate_succ', Function.comp_apply]; exact ih
    show _ + (1 - 0) * _ = _
    rw [ih, ht]
    push_cast
    ring

/-! ## Cascades -/

/-- the stages after a series of calls -/
def cascAfter (c : Cascade K) (eps : K) : Stage K × Stage K → List (Asked K) → Stage K × Stage K
  | st, [] => st
  | st, .control s r :: l => cascAfter c eps (c.control eps st s r).1 l
  | st, .reset :: l => cascAfter c eps (cascadeReset st) l

/-- a continuous stage with a bounded integral part -/
def StageKept (g : Gains K) (M F E : K) : Stage K → Prop
  | .cont c => Kept g M F E c
  | .disc _ => False

theorem cascade_feedforward (c : Cascade K) (eps : K) {E : K} (hE : 0 ≤ E) {s : ℕ → K} (hs : ∀ j, |s j| ≤ E) :
    |c.feedforward eps s| ≤ E * |c.nomOmega| * (|c.psi| + |c.l| * E * |c.nomI| + |eps|) / |c.nomU| := by
  have hx : |max (if c.psi ≠ 0 then c.psi else c.l * s c.ieIdx * c.nomI) eps| ≤ |c.psi| + |c.l| * E * |c.nomI| + |eps| := by
    refine abs_max_le_max_abs_abs.trans (max_le ?_ ?_)
    · split_ifs
      · have h1 : 0 ≤ |c.l| * E * |c.nomI| + |eps| := by positivity
        linarith
      · have h1 : |c.l * s c.ieIdx * c.nomI| ≤ |c.l| * E * |c.nomI| := by
          rw [abs_mul, abs_mul]
          exact mul_le_mul_of_nonneg_right (mul_le_mul_of_nonneg_left (hs _) (abs_nonneg _)) (abs_nonneg _)
        have := abs_nonneg c.psi
        have := abs_nonneg eps
        linarith
    · have h1 : 0 ≤ |c.psi| + |c.l| * E * |c.nomI| := by positivity
      linarith
  unfold Cascade.feedforward
  rw [abs_div, abs_mul, abs_mul]
  refine div_le_div_of_nonneg_right ?_ (abs_nonneg _)
  exact mul_le_mul (mul_le_mul_of_nonneg_right (hs _) (abs_nonneg _)) hx (abs_nonneg _) (by positivity)

/-- C126 for the `CascadedController` of DC motors with continuous stages: one bound for the integral parts of both stages in all
histories of calls with bounded states and references. -/
theorem c126_cascade (c : Cascade K) (eps : K) (g o : Gains K) (E : K) (hE : 0 ≤ E) (hi : c.iLo ≤ c.iHi) :
    ∃ B, ∀ calls : List (Asked K), (∀ a ∈ calls, a.Bounded E) → ∃ x y, cascAfter c eps (.cont g.new, .cont o.new) calls = (.cont x, .cont y) ∧
      |iPart x| ≤ B ∧ |iPart y| ≤ B := by
  have n1 := neg_abs_le c.lo
  have n2 := le_abs_self c.hi
  have n3 := neg_abs_le c.iLo
  have n4 := le_abs_self c.iHi
  have n5 := abs_nonneg c.lo
  have n6 := abs_nonneg c.hi
  have n7 := abs_nonneg c.iLo
  have n8 := abs_nonneg c.iHi
  let M := |c.lo| + |c.hi|
  let N := |c.iLo| + |c.iHi|
  let D := E + N
  have hD : 0 ≤ D := by simp only [D, N]; positivity
  let F := E * |c.nomOmega| * (|c.psi| + |c.l| * E * |c.nomI| + |eps|) / |c.nomU|
  have hF : 0 ≤ F := by simp only [F]; positivity
  have hM : 0 ≤ M := by simp only [M]; positivity
  have hN : 0 ≤ N := by simp only [N]; positivity
  have main : ∀ calls : List (Asked K), (∀ a ∈ calls, a.Bounded E) → ∀ x y, Kept g M F D x → Kept o N 0 D y →
      ∃ x' y', cascAfter c eps (.cont x, .cont y) calls = (.cont x', .cont y') ∧ Kept g M F D x' ∧ Kept o N 0 D y' := by
    intro calls
    induction calls with
    | nil => exact fun _ x y h1 h2 => ⟨x, y, rfl, h1, h2⟩
    | cons a l ih =>
      intro hb x y h1 h2
      have hl : ∀ a ∈ l, a.Bounded E := fun b hb' => hb b (List.mem_cons_of_mem _ hb')
      cases a with
      | reset => exact ih hl _ _ (kept_reset hM hF hD h1) (kept_reset hN le_rfl hD h2)
      | control s r =>
        have hsr := hb _ List.mem_cons_self
        have hs : ∀ j, |s j| ≤ D := fun j => (hsr j).1.trans (by simp only [D]; linarith)
        have hr : ∀ j, |r j| ≤ D := fun j => (hsr j).2.trans (by simp only [D]; linarith)
        have k2 := kept_guarded (f := 0) h2 (abs_diff (hr c.refIdx) (hs c.iaIdx)) (abs_diff (hr 0) (hs c.refState)) (by simp)
          (lo := c.iLo) (hi := c.iHi) (by simp only [N]; linarith) (by simp only [N]; linarith)
        rw [add_zero] at k2
        have hw := guarded_within hi (y.control (s c.iaIdx) (r c.refIdx)).2 (y.control (s c.iaIdx) (r c.refIdx)).1 (s c.refState) (r 0)
        have hw' : |(guarded c.iLo c.iHi (y.control (s c.iaIdx) (r c.refIdx)).2 (y.control (s c.iaIdx) (r c.refIdx)).1
            (s c.refState) (r 0)).2| ≤ D := by
          rw [abs_le]
          constructor <;> simp only [D, N] <;> linarith [hw.1, hw.2]
        have k1 := kept_guarded (f := c.feedforward eps s) h1 (abs_diff hw' (hs c.iaIdx)) (abs_diff hw' (hs c.iaIdx))
          (cascade_feedforward c eps hE fun j => (hsr j).1) (lo := c.lo) (hi := c.hi) (by simp only [M]; linarith)
          (by simp only [M]; linarith)
        exact ih hl _ _ k1 k2
  refine ⟨max (partBound g M F D) (partBound o N 0 D), fun calls hb => ?_⟩
  obtain ⟨x, y, e, k1, k2⟩ := main calls hb g.new o.new (kept_new g hM hF hD) (kept_new o hN le_rfl hD)
  exact ⟨x, y, e, k1.2.1.trans (le_max_left _ _), k2.2.1.trans (le_max_right _ _)⟩

/-! ## Cascades of externally excited motors -/

/-- the stages after a series of calls -/
def excitedAfter (c : Cascade K) (x : Excited K) (eps : K) (root : K → K) : Stage K × Stage K × Stage K → List (Asked K) →
    Stage K × Stage K × Stage K
  | st, [] => st
  | st, .control s r :: l => excitedAfter c x eps root (x.control c eps root st s r).1 l
  | st, .reset :: l => excitedAfter c x eps root (excitedReset st) l

theorem abs_clip_le (y lo hi : K) : |clip y lo hi| ≤ |lo| + |hi| := by
  have n1 := neg_abs_le lo
  have n2 := le_abs_self hi
  have n3 := abs_nonneg lo
  have n4 := abs_nonneg hi
  have n5 := neg_abs_le hi
  rw [abs_le]
  simp only [clip]
  exact ⟨le_min ((by linarith : -(|lo| + |hi|) ≤ lo).trans (le_max_right _ _)) (by linarith), (min_le_right _ _).trans (by linarith)⟩

/-- the references of the currents are clipped -/
theorem excited_currents (x : Excited K) (l : K) (root : K → K) (t : K) :
    (∀ a, (x.currents l root t).1 = some a → |a| ≤ (|x.iaLow * x.iaLimit| + |x.iaHigh * x.iaLimit|) / |x.iaLimit|) ∧
    |(x.currents l root t).2| ≤ (|x.ieLow * x.ieLimit| + |x.ieHigh * x.ieLimit|) / |x.ieLimit| := by
  constructor
  · intro a ha
    have hd : ∀ b, |b| ≤ |x.iaLow * x.iaLimit| + |x.iaHigh * x.iaLimit| →
        |b / x.iaLimit| ≤ (|x.iaLow * x.iaLimit| + |x.iaHigh * x.iaLimit|) / |x.iaLimit| := fun b hb => by
      rw [abs_div]; exact div_le_div_of_nonneg_right hb (abs_nonneg _)
    have n3 := abs_nonneg (x.iaLow * x.iaLimit)
    have n4 := abs_nonneg (x.iaHigh * x.iaLimit)
    simp only [Excited.currents] at ha
    split_ifs at ha <;> simp only [Option.map_some, Option.map_none, Option.some.injEq, reduceCtorEq] at ha <;> rw [← ha] <;> apply hd
    · exact abs_clip_le _ _ _
    · linarith
    · linarith
  · simp only [Excited.currents]
    rw [abs_div]
    exact div_le_div_of_nonneg_right (abs_clip_le _ _ _) (abs_nonneg _)

/-- C126 for the `CascadedController` of externally excited motors with continuous stages, with torque or speed control: one bound for the
integral parts of the armature, the speed and the exciting stage.  `root` may be any function. -/
theorem c126_excited (c : Cascade K) (x : Excited K) (eps : K) (root : K → K) (g o e : Gains K) (E : K) (hE : 0 ≤ E) :
    ∃ B, ∀ calls : List (Asked K), (∀ a ∈ calls, a.Bounded E) → ∃ u v w,
      excitedAfter c x eps root (.cont g.new, .cont o.new, .cont e.new) calls = (.cont u, .cont v, .cont w) ∧
      |iPart u| ≤ B ∧ |iPart v| ≤ B ∧ |iPart w| ≤ B := by
  have n1 := neg_abs_le c.lo
  have n2 := le_abs_self c.hi
  have n3 := abs_nonneg c.lo
  have n4 := abs_nonneg c.hi
  have t1 := neg_abs_le x.tLo
  have t2 := le_abs_self x.tHi
  have t3 := abs_nonneg x.tLo
  have t4 := abs_nonneg x.tHi
  have e1 := neg_abs_le x.lo
  have e2 := le_abs_self x.hi
  have e3 := abs_nonneg x.lo
  have e4 := abs_nonneg x.hi
  let M := |c.lo| + |c.hi|
  let N := |x.tLo| + |x.tHi|
  let Q := |x.lo| + |x.hi|
  let A := (|x.iaLow * x.iaLimit| + |x.iaHigh * x.iaLimit|) / |x.iaLimit|
  let B := (|x.ieLow * x.ieLimit| + |x.ieHigh * x.ieLimit|) / |x.ieLimit|
  have hA : 0 ≤ A := by simp only [A]; positivity
  have hB : 0 ≤ B := by simp only [B]; positivity
  let D := E + A + B
  have hD : 0 ≤ D := by simp only [D]; linarith
  let F := E * |c.nomOmega| * (|c.psi| + |c.l| * E * |c.nomI| + |eps|) / |c.nomU|
  have hF : 0 ≤ F := by simp only [F]; positivity
  have hM : 0 ≤ M := by simp only [M]; positivity
  have hN : 0 ≤ N := by simp only [N]; positivity
  have hQ : 0 ≤ Q := by simp only [Q]; positivity
  have main : ∀ calls : List (Asked K), (∀ a ∈ calls, a.Bounded E) → ∀ u v w, Kept g M F D u → Kept o N 0 D v → Kept e Q 0 D w →
      ∃ u' v' w', excitedAfter c x eps root (.cont u, .cont v, .cont w) calls = (.cont u', .cont v', .cont w') ∧
        Kept g M F D u' ∧ Kept o N 0 D v' ∧ Kept e Q 0 D w' := by
    intro calls
    induction calls with
    | nil => exact fun _ u v w h1 h2 h3 => ⟨u, v, w, rfl, h1, h2, h3⟩
    | cons a l ih =>
      intro hb u v w h1 h2 h3
      have hl : ∀ a ∈ l, a.Bounded E := fun b hb' => hb b (List.mem_cons_of_mem _ hb')
      cases a with
      | reset => exact ih hl _ _ _ (kept_reset hM hF hD h1) (kept_reset hN le_rfl hD h2) (kept_reset hQ le_rfl hD h3)
      | control s r =>
        have hsr := hb _ List.mem_cons_self
        have hs : ∀ j, |s j| ≤ D := fun j => (hsr j).1.trans (by simp only [D]; linarith)
        have hr : ∀ j, |r j| ≤ D := fun j => (hsr j).2.trans (by simp only [D]; linarith)
        have ho : ∃ v' t, (if x.speed then (Stage.cont v).outer x.tLo x.tHi (s x.torqueIdx) (s c.refState) (r c.refIdx) (r 0)
            else (Stage.cont v, r c.refIdx)) = (.cont v', t) ∧ Kept o N 0 D v' := by
          split_ifs
          · have k2 := kept_guarded (f := 0) h2 (abs_diff (hr c.refIdx) (hs x.torqueIdx)) (abs_diff (hr 0) (hs c.refState)) (by simp)
              (lo := x.tLo) (hi := x.tHi) (by simp only [N]; linarith) (by simp only [N]; linarith)
            rw [add_zero] at k2
            exact ⟨_, _, rfl, k2⟩
          · exact ⟨v, _, rfl, h2⟩
        obtain ⟨v', t, eo, kv⟩ := ho
        have hc := excited_currents x c.l root t
        have hi : ∃ u' y, c.innerNum eps (.cont u) s (x.currents c.l root t).1 = (.cont u', y) ∧ Kept g M F D u' := by
          cases hx : (x.currents c.l root t).1 with
          | none => exact ⟨u, none, rfl, h1⟩
          | some b =>
            have hb' : |b| ≤ D := (hc.1 b hx).trans (by simp only [D, A] at hA hB ⊢; linarith)
            exact ⟨_, _, rfl, kept_guarded (f := c.feedforward eps s) h1 (abs_diff hb' (hs c.iaIdx)) (abs_diff hb' (hs c.iaIdx))
              (cascade_feedforward c eps hE fun j => (hsr j).1) (lo := c.lo) (hi := c.hi) (by simp only [M]; linarith)
              (by simp only [M]; linarith)⟩
        obtain ⟨u', y, ei, ku⟩ := hi
        have hre : |if x.refE = 0 then (x.currents c.l root t).2 else r x.refE| ≤ D := by
          split_ifs
          · exact hc.2.trans (by simp only [D, B] at hA hB ⊢; linarith)
          · exact hr _
        have k3 := kept_guarded (f := 0) h3 (abs_diff hre (hs c.ieIdx)) (abs_diff hre (hs c.ieIdx)) (by simp)
          (lo := x.lo) (hi := x.hi) (by simp only [Q]; linarith) (by simp only [Q]; linarith)
        rw [add_zero] at k3
        simp only [excitedAfter, Excited.control, eo, ei]
        exact ih hl _ _ _ ku kv k3
  refine ⟨max (max (partBound g M F D) (partBound o N 0 D)) (partBound e Q 0 D), fun calls hb => ?_⟩
  obtain ⟨u, v, w, h, k1, k2, k3⟩ := main calls hb g.new o.new e.new (kept_new g hM hF hD) (kept_new o hN le_rfl hD) (kept_new e hQ le_rfl hD)
  exact ⟨u, v, w, h, k1.2.1.trans ((le_max_left _ _).trans (le_max_left _ _)), k2.2.1.trans ((le_max_right _ _).trans (le_max_left _ _)),
    k3.2.1.trans (le_max_right _ _)⟩

end generic

/-! ## Field oriented control -/

/-- The voltages of three phases in a box determine the voltages in rotating coordinates up to a factor, also after the reference
potential was shifted. -/
theorem phase_bounds {M : ℝ} (u : Fin 2 → ℝ) (eps z : ℝ) (h : ∀ j, |Motor.t32 (Motor.q u eps) j - z| ≤ M) (j : Fin 2) :
    |u j| ≤ 4 * M := by
  have h0 := abs_le.1 (h 0)
  have h1 := abs_le.1 (h 1)
  have h2 := abs_le.1 (h 2)
  set a := Motor.q u eps 0 with ha
  set b := Motor.q u eps 1 with hb
  have e0 : Motor.t32 (Motor.q u eps) 0 = a := by simp [Motor.t32, ha, Matrix.vecHead]
  have e1 : Motor.t32 (Motor.q u eps) 1 = -(1 / 2) * a + 1 / 2 * √3 * b := by simp [Motor.t32, ha, hb, Matrix.mulVec, Matrix.vecHead, Matrix.vecTail]
  have e2 : Motor.t32 (Motor.q u eps) 2 = -(1 / 2) * a - 1 / 2 * √3 * b := by
    simp [Motor.t32, ha, hb, Matrix.mulVec, Matrix.vecHead, Matrix.vecTail]; ring
  rw [e0] at h0
  rw [e1] at h1
  rw [e2] at h2
  have s3 : (1 : ℝ) ≤ √3 := by rw [Real.one_le_sqrt]; norm_num
  have ea : |a| ≤ 4 / 3 * M := by
    rw [abs_le]
    constructor <;> linarith [h0.1, h0.2, h1.1, h1.2, h2.1, h2.2]
  have eb' : |√3 * b| ≤ 2 * M := by
    rw [abs_le]
    constructor <;> linarith [h0.1, h0.2, h1.1, h1.2, h2.1, h2.2]
  have eb : |b| ≤ 2 * M := by
    rw [abs_mul, abs_of_nonneg (Real.sqrt_nonneg 3)] at eb'
    have := abs_nonneg b
    nlinarith
  have hu : u 0 = Real.cos eps * a + Real.sin eps * b ∧ u 1 = -Real.sin eps * a + Real.cos eps * b := by
    have hcs := Real.sin_sq_add_cos_sq eps
    constructor
    · simp only [ha, hb, Motor.q, Matrix.cons_val_zero, Matrix.cons_val_one]
      linear_combination (-(u 0)) * hcs
    · simp only [ha, hb, Motor.q, Matrix.cons_val_zero, Matrix.cons_val_one]
      linear_combination (-(u 1)) * hcs
  have hc := Real.abs_cos_le_one eps
  have hs := Real.abs_sin_le_one eps
  have p1 : |Real.cos eps * a| ≤ |a| := by rw [abs_mul]; exact mul_le_of_le_one_left (abs_nonneg _) hc
  have p2 : |Real.sin eps * b| ≤ |b| := by rw [abs_mul]; exact mul_le_of_le_one_left (abs_nonneg _) hs
  have p3 : |-Real.sin eps * a| ≤ |a| := by rw [abs_mul, abs_neg]; exact mul_le_of_le_one_left (abs_nonneg _) hs
  have p4 : |Real.cos eps * b| ≤ |b| := by rw [abs_mul]; exact mul_le_of_le_one_left (abs_nonneg _) hc
  have hM : 0 ≤ M := by linarith [h0.1, h0.2]
  fin_cases j
  · show |u 0| ≤ _
    rw [hu.1]
    have := abs_add_le (Real.cos eps * a) (Real.sin eps * b)
    linarith
  · show |u 1| ≤ _
    rw [hu.2]
    have := abs_add_le (-Real.sin eps * a) (Real.cos eps * b)
    linarith

theorem shifted_bounds {M : ℝ} (u : Fin 2 → ℝ) (eps : ℝ) (h : ∀ j, |shifted (Motor.t32 (Motor.q u eps)) j| ≤ M) (j : Fin 2) :
    |u j| ≤ 4 * M := phase_bounds u eps _ h j

/-- the current controllers of synchronous motors: one call -/
theorem foc_kept (c : Foc) (g e : Gains ℝ) {M F E : ℝ} (hM : max |c.lo| |c.hi| ≤ M) {st : Cont ℝ × Cont ℝ}
    (h1 : Kept g (4 * M) F E st.1) (h2 : Kept e (4 * M) F E st.2) {s : ℕ → ℝ} {rd rq : ℝ} (hd : |rd - s c.iSd| ≤ 2 * E)
    (hq : |rq - s c.iSq| ≤ 2 * E) (hf : ∀ j, |c.coupling s j| ≤ F) :
    Kept g (4 * M) F E (c.currents st s rd rq).1.1 ∧ Kept e (4 * M) F E (c.currents st s rd rq).1.2 := by
  simp only [Foc.currents, integrated]
  split_ifs with hw
  · have hb : ∀ j, |shifted (Motor.t32 (Motor.q ![(st.1.control (s c.iSd) rd).2 + c.coupling s 0,
        (st.2.control (s c.iSq) rq).2 + c.coupling s 1] (c.angle s))) j| ≤ M := by
      intro j
      rw [← hw]
      have m1 := abs_le.1 ((le_max_left |c.lo| |c.hi|).trans hM)
      have m2 := abs_le.1 ((le_max_right |c.lo| |c.hi|).trans hM)
      rw [abs_le]
      simp only [clip3, clip]
      exact ⟨le_min (m1.1.trans (le_max_right _ _)) m2.1, (min_le_right _ _).trans m2.2⟩
    have b0 := shifted_bounds _ _ hb 0
    have b1 := shifted_bounds _ _ hb 1
    exact ⟨kept_integrate h1 hd hd (hf 0) rfl b0, kept_integrate h2 hq hq (hf 1) rfl b1⟩
  · exact ⟨kept_control h1 hd, kept_control h2 hq⟩

/-- the decoupling is bounded for bounded states -/
theorem coupling_bounded (c : Foc) {E : ℝ} (hE : 0 ≤ E) :
    ∃ F, 0 ≤ F ∧ ∀ s : ℕ → ℝ, (∀ j, |s j| ≤ E) → ∀ j, |c.coupling s j| ≤ F := by
  let A := E * |c.p| * |c.lQ| * E * |c.limSq| / |c.limUd| * |c.limOmega|
  let B := E * |c.p| * (E * |c.lD| * |c.lim| + |c.psi|) / |c.limUq| * |c.limOmega|
  have hA : 0 ≤ A := by simp only [A]; positivity
  have hB : 0 ≤ B := by simp only [B]; positivity
  refine ⟨A + B, by positivity, fun s hs j => ?_⟩
  unfold Foc.coupling
  split_ifs
  · fin_cases j
    · have : |(-s c.omega * c.p * c.lQ * s c.iSq * c.limSq / c.limUd * c.limOmega)| ≤ A := by
        simp only [abs_mul, abs_div, abs_neg, A]
        have h1 := hs c.omega
        have h2 := hs c.iSq
        gcongr
      show |_| ≤ _
      exact this.trans (by linarith)
    · have : |(s c.omega * c.p * (s c.iSd * c.lD * c.lim + c.psi) / c.limUq * c.limOmega)| ≤ B := by
        simp only [abs_mul, abs_div, B]
        have h1 := hs c.omega
        have h2 : |s c.iSd * c.lD * c.lim + c.psi| ≤ E * |c.lD| * |c.lim| + |c.psi| := by
          refine (abs_add_le _ _).trans ?_
          rw [abs_mul, abs_mul]
          have h3 := hs c.iSd
          gcongr
        gcongr
      show |_| ≤ _
      exact this.trans (by linarith)
  · fin_cases j <;> simp <;> linarith

/-- the current controllers after a series of calls -/
noncomputable def focAfter (c : Foc) (refD refQ : ℕ) : Cont ℝ × Cont ℝ → List (Asked ℝ) → Cont ℝ × Cont ℝ
  | st, [] => st
  | st, .control s r :: l => focAfter c refD refQ (c.control refD refQ st s r).1 l
  | st, .reset :: l => focAfter c refD refQ (focReset st) l

/-- C126 for the field oriented control of the currents of synchronous motors. -/
theorem c126_foc (c : Foc) (refD refQ : ℕ) (g e : Gains ℝ) (E : ℝ) (hE : 0 ≤ E) :
    ∃ B, ∀ calls : List (Asked ℝ), (∀ a ∈ calls, a.Bounded E) →
      |iPart (focAfter c refD refQ (g.new, e.new) calls).1| ≤ B ∧ |iPart (focAfter c refD refQ (g.new, e.new) calls).2| ≤ B := by
  obtain ⟨F, hF, hf⟩ := coupling_bounded c hE
  set M := max |c.lo| |c.hi| with hM
  have hM0 : 0 ≤ 4 * M := by rw [hM]; positivity
  have main : ∀ calls : List (Asked ℝ), (∀ a ∈ calls, a.Bounded E) → ∀ st : Cont ℝ × Cont ℝ, Kept g (4 * M) F E st.1 →
      Kept e (4 * M) F E st.2 → Kept g (4 * M) F E (focAfter c refD refQ st calls).1 ∧ Kept e (4 * M) F E (focAfter c refD refQ st calls).2 := by
    intro calls
    induction calls with
    | nil => exact fun _ st h1 h2 => ⟨h1, h2⟩
    | cons a l ih =>
      intro hb st h1 h2
      have hl : ∀ a ∈ l, a.Bounded E := fun b hb' => hb b (List.mem_cons_of_mem _ hb')
      cases a with
      | reset => exact ih hl _ (kept_reset hM0 hF hE h1) (kept_reset hM0 hF hE h2)
      | control s r =>
        have hsr := hb _ List.mem_cons_self
        have k := foc_kept c g e le_rfl h1 h2 (abs_diff (hsr refD).2 (hsr c.iSd).1) (abs_diff (hsr refQ).2 (hsr c.iSq).1)
          (hf s fun j => (hsr j).1)
        exact ih hl _ k.1 k.2
  refine ⟨max (partBound g (4 * M) F E) (partBound e (4 * M) F E), fun calls hb => ?_⟩
  obtain ⟨k1, k2⟩ := main calls hb (g.new, e.new) (kept_new g hM0 hF hE) (kept_new e hM0 hF hE)
  exact ⟨k1.2.1.trans (le_max_left _ _), k2.2.1.trans (le_max_right _ _)⟩

/-- the cascade after a series of calls -/
noncomputable def cfocAfter {θ : Type} (c : Foc) (task : Task) (o : Overlaid) (conv : Conversion θ) (refD : ℕ) :
    CascadedFoc (Cont ℝ × Cont ℝ) θ → List (Asked ℝ) → CascadedFoc (Cont ℝ × Cont ℝ) θ
  | st, [] => st
  | st, .control s r :: l => cfocAfter c task o conv refD (c.cascaded task o conv refD st s r).1 l
  | st, .reset :: l => cfocAfter c task o conv refD (cascadedFocReset focReset task conv st) l

/-- the overlaid controller: one call -/
theorem overlaid_kept (o : Overlaid) (g : Gains ℝ) {E : ℝ} {y : Cont ℝ} (h : Kept g (|o.low| + |o.high|) 0 E y) {s : ℕ → ℝ} {r : ℝ}
    (he : |r - s o.omega| ≤ 2 * E) : ∃ y', (o.control (.cont y) s r).1 = .cont y' ∧ Kept g (|o.low| + |o.high|) 0 E y' := by
  have e : o.control (.cont y) s r = if 85 / 100 * o.low ≤ (y.control (s o.omega) r).2 ∧ (y.control (s o.omega) r).2 ≤ 85 / 100 * o.high
      then (.cont ((y.control (s o.omega) r).1.integrate (s o.omega) r), (y.control (s o.omega) r).2)
      else (.cont (y.control (s o.omega) r).1,
        clip (y.control (s o.omega) r).2 (o.nominal / o.limit * o.low) (o.nominal / o.limit * o.high)) := rfl
  rw [e]
  by_cases hy : 85 / 100 * o.low ≤ (y.control (s o.omega) r).2 ∧ (y.control (s o.omega) r).2 ≤ 85 / 100 * o.high
  · rw [if_pos hy]
    refine ⟨_, rfl, kept_integrate (f := 0) h he he (by simp) rfl ?_⟩
    have n1 := neg_abs_le o.low
    have n2 := le_abs_self o.high
    have n3 := abs_nonneg o.low
    have n4 := abs_nonneg o.high
    rw [abs_le]
    constructor <;> linarith [hy.1, hy.2]
  · rw [if_neg hy]
    exact ⟨_, rfl, kept_control h he⟩

/-- C126 for the cascaded field oriented control of synchronous motors: if the conversion of torques to currents answers with bounded
currents, as clipping to the limits makes it do, the integral parts of the current controllers and of the speed controller are bounded. -/
theorem c126_cascaded_foc {θ : Type} (c : Foc) (task : Task) (o : Overlaid) (conv : Conversion θ) (refD : ℕ) (g e w : Gains ℝ) (t : θ)
    (E : ℝ) (hE : 0 ≤ E) (hconv : ∀ x s y, |(conv.control x s y).2.1| ≤ E ∧ |(conv.control x s y).2.2| ≤ E) :
    ∃ B, ∀ calls : List (Asked ℝ), (∀ a ∈ calls, a.Bounded E) → ∃ x y z t',
      cfocAfter c task o conv refD ((g.new, e.new), .cont w.new, t) calls = ((x, y), .cont z, t') ∧
        |iPart x| ≤ B ∧ |iPart y| ≤ B ∧ |iPart z| ≤ B := by
  obtain ⟨F, hF, hf⟩ := coupling_bounded c hE
  set M := max |c.lo| |c.hi| with hM
  have hM0 : 0 ≤ 4 * M := by rw [hM]; positivity
  have hN : 0 ≤ |o.low| + |o.high| := by positivity
  have main : ∀ calls : List (Asked ℝ), (∀ a ∈ calls, a.Bounded E) → ∀ x y z t, Kept g (4 * M) F E x → Kept e (4 * M) F E y →
      Kept w (|o.low| + |o.high|) 0 E z → ∃ x' y' z' t', cfocAfter c task o conv refD ((x, y), .cont z, t) calls = ((x', y'), .cont z', t') ∧
        Kept g (4 * M) F E x' ∧ Kept e (4 * M) F E y' ∧ Kept w (|o.low| + |o.high|) 0 E z' := by
    intro calls
    induction calls with
    | nil => exact fun _ x y z t h1 h2 h3 => ⟨x, y, z, t, rfl, h1, h2, h3⟩
    | cons a l ih =>
      intro hb x y z t h1 h2 h3
      have hl : ∀ a ∈ l, a.Bounded E := fun b hb' => hb b (List.mem_cons_of_mem _ hb')
      cases a with
      | reset =>
        simp only [cfocAfter, cascadedFocReset, focReset]
        split_ifs
        all_goals first
          | exact ih hl _ _ _ _ (kept_reset hM0 hF hE h1) (kept_reset hM0 hF hE h2) (kept_reset hN le_rfl hE h3)
          | exact ih hl _ _ _ _ (kept_reset hM0 hF hE h1) (kept_reset hM0 hF hE h2) h3
      | control s r =>
        have hsr := hb _ List.mem_cons_self
        have hr : ∃ z' t' rd rq, cascadedRefs task o conv refD ((x, y), .cont z, t) s r = ((.cont z', t'), rd, rq) ∧
            Kept w (|o.low| + |o.high|) 0 E z' ∧ |rd| ≤ E ∧ |rq| ≤ E := by
          cases task with
          | current => exact ⟨z, t, r refD, 0, rfl, h3, (hsr _).2, by simpa using hE⟩
          | torque => exact ⟨z, _, _, _, rfl, h3, (hconv _ _ _).2, (hconv _ _ _).1⟩
          | speed =>
            obtain ⟨z', ez, kz⟩ := overlaid_kept o w h3 (abs_diff (hsr 0).2 (hsr o.omega).1)
            let v := conv.control t s ((o.control (.cont z) s (r 0)).2 * o.limit)
            exact ⟨z', v.1, v.2.2, v.2.1, by simp only [cascadedRefs, ez, v], kz, (hconv _ _ _).2, (hconv _ _ _).1⟩
        obtain ⟨z', t', rd, rq, er, kz, bd, bq⟩ := hr
        have k := foc_kept c g e le_rfl h1 h2 (st := (x, y)) (abs_diff bd (hsr c.iSd).1) (abs_diff bq (hsr c.iSq).1)
          (hf s fun j => (hsr j).1)
        simp only [cfocAfter, Foc.cascaded, er]
        exact ih hl _ _ _ _ k.1 k.2 kz
  refine ⟨max (max (partBound g (4 * M) F E) (partBound e (4 * M) F E)) (partBound w (|o.low| + |o.high|) 0 E), fun calls hb => ?_⟩
  obtain ⟨x, y, z, t', h, k1, k2, k3⟩ := main calls hb g.new e.new w.new t (kept_new g hM0 hF hE) (kept_new e hM0 hF hE)
    (kept_new w hN le_rfl hE)
  exact ⟨x, y, z, t', h, k1.2.1.trans ((le_max_left _ _).trans (le_max_left _ _)),
    k2.2.1.trans ((le_max_right _ _).trans (le_max_left _ _)), k3.2.1.trans (le_max_right _ _)⟩

/-! ## Induction motors -/

/-- the controllers and the estimated flux after a series of calls -/
noncomputable def imAfter (c : ImFoc) (refD refQ : ℕ) : (Cont ℝ × Cont ℝ) × ℂ → List (Asked ℝ) → (Cont ℝ × Cont ℝ) × ℂ
  | st, [] => st
  | st, .control s r :: l => imAfter c refD refQ (c.control refD refQ st s r).1 l
  | st, .reset :: l => imAfter c refD refQ (imFocReset st) l

/-- the decoupling is bounded for bounded states and fluxes -/
theorem im_coupling_bounded (c : ImFoc) {X P : ℝ} (hX : 0 ≤ X) (hP : 0 ≤ P) :
    ∃ F, 0 ≤ F ∧ ∀ (s : ℕ → ℝ) (psi : ℝ), |s c.omega| ≤ X → |s c.iSd| ≤ X → |s c.iSq| ≤ X → |psi| ≤ P → ∀ j, |c.coupling s psi j| ≤ F := by
  let W := X + |c.rr * c.lm / c.lr| * X * 10000
  have hW : 0 ≤ W := by simp only [W]; positivity
  let A := W * |c.sigma| * |c.ls| * X + |c.lm * c.rr / c.lr ^ 2| * P
  let B := W * |c.sigma| * |c.ls| * X + X * |c.lm| / |c.lr| * P
  have hA : 0 ≤ A := by simp only [A]; positivity
  have hB : 0 ≤ B := by simp only [B]; positivity
  refine ⟨A + B, by positivity, fun s psi h1 h2 h3 h4 j => ?_⟩
  have hw : |s c.omega + c.rr * c.lm / c.lr * s c.iSq / max |psi| (1 / 10000) * ((SignType.sign psi : SignType) : ℝ)| ≤ W := by
    refine (abs_add_le _ _).trans (add_le_add h1 ?_)
    have hm : (1 / 10000 : ℝ) ≤ max |psi| (1 / 10000) := le_max_right _ _
    have hs : |((SignType.sign psi : SignType) : ℝ)| ≤ 1 := by
      rcases lt_trichotomy psi 0 with h | h | h
      · rw [sign_neg h]; simp
      · rw [h]; simp
      · rw [sign_pos h]; simp
    rw [abs_mul]
    refine (mul_le_of_le_one_right (abs_nonneg _) hs).trans ?_
    rw [abs_div, abs_mul, abs_of_nonneg (le_trans (by norm_num) hm), div_le_iff₀ (lt_of_lt_of_le (by norm_num) hm)]
    have e : |c.rr * c.lm / c.lr| * X * 10000 * (1 / 10000) = |c.rr * c.lm / c.lr| * X := by ring
    calc |c.rr * c.lm / c.lr| * |s c.iSq| ≤ |c.rr * c.lm / c.lr| * X := mul_le_mul_of_nonneg_left h3 (abs_nonneg _)
      _ = |c.rr * c.lm / c.lr| * X * 10000 * (1 / 10000) := e.symm
      _ ≤ _ := mul_le_mul_of_nonneg_left hm (by positivity)
  unfold ImFoc.coupling
  split_ifs
  · fin_cases j
    · show |_ - _| ≤ _
      refine (abs_sub _ _).trans ?_
      have a1 : |-(s c.omega + c.rr * c.lm / c.lr * s c.iSq / max |psi| (1 / 10000) * ((SignType.sign psi : SignType) : ℝ)) * c.sigma * c.ls * s c.iSq|
          ≤ W * |c.sigma| * |c.ls| * X := by
        rw [abs_mul, abs_mul, abs_mul, abs_neg]
        gcongr
      have a2 : |c.lm * c.rr / c.lr ^ 2 * psi| ≤ |c.lm * c.rr / c.lr ^ 2| * P := by
        rw [abs_mul]
        gcongr
      simp only [A] at hA ⊢
      linarith
    · show |_ + _| ≤ _
      refine (abs_add_le _ _).trans ?_
      have a1 : |(s c.omega + c.rr * c.lm / c.lr * s c.iSq / max |psi| (1 / 10000) * ((SignType.sign psi : SignType) : ℝ)) * c.sigma * c.ls * s c.iSd|
          ≤ W * |c.sigma| * |c.ls| * X := by
        rw [abs_mul, abs_mul, abs_mul]
        gcongr
      have a2 : |s c.omega * c.lm / c.lr * psi| ≤ X * |c.lm| / |c.lr| * P := by
        rw [abs_mul, abs_div, abs_mul]
        gcongr
      simp only [B] at hB ⊢
      linarith
  · fin_cases j <;> simp <;> linarith

/-- the current controllers of induction motors: one call -/
theorem im_kept (c : ImFoc) (g e : Gains ℝ) {M L F X : ℝ} (hM : max |c.lo| |c.hi| ≤ M) (hM0 : 0 ≤ M)
    (hL : ∀ j, c.limits (c.abc j) ≠ 0 ∧ |c.limits (c.abc j)| ≤ L) {st : Cont ℝ × Cont ℝ}
    (h1 : Kept g (4 * (M * L)) F X st.1) (h2 : Kept e (4 * (M * L)) F X st.2) {s : ℕ → ℝ} {rd rq : ℝ} {psi : ℂ}
    (hd : |rd - s c.iSd * c.limits c.iSd| ≤ 2 * X) (hq : |rq - s c.iSq * c.limits c.iSq| ≤ 2 * X)
    (hf : ∀ j, |c.coupling (fun i => s i * c.limits i) ‖psi‖ j| ≤ F) :
    Kept g (4 * (M * L)) F X (c.currents st s rd rq psi).1.1 ∧ Kept e (4 * (M * L)) F X (c.currents st s rd rq psi).1.2 := by
  simp only [ImFoc.currents, integrated]
  split_ifs with hw
  · have hb : ∀ j, |Motor.t32 (Motor.q ![c.coupling (fun i => s i * c.limits i) ‖psi‖ 0 + (st.1.control (s c.iSd * c.limits c.iSd) rd).2,
        c.coupling (fun i => s i * c.limits i) ‖psi‖ 1 + (st.2.control (s c.iSq * c.limits c.iSq) rq).2] psi.arg) j - 0| ≤ M * L := by
      intro j
      have hj := congrFun hw j
      have m1 := abs_le.1 ((le_max_left |c.lo| |c.hi|).trans hM)
      have m2 := abs_le.1 ((le_max_right |c.lo| |c.hi|).trans hM)
      have hc : ∀ x, |clip x c.lo c.hi| ≤ M := fun x => by
        rw [abs_le]
        simp only [clip]
        exact ⟨le_min (m1.1.trans (le_max_right _ _)) m2.1, (min_le_right _ _).trans m2.2⟩
      simp only [clip3] at hj
      rw [sub_zero]
      have hx := hc (Sys.dqToAbc ![c.coupling (fun i => s i * c.limits i) ‖psi‖ 0 + (st.1.control (s c.iSd * c.limits c.iSd) rd).2,
        c.coupling (fun i => s i * c.limits i) ‖psi‖ 1 + (st.2.control (s c.iSq * c.limits c.iSq) rq).2] psi.arg j / c.limits (c.abc j))
      rw [hj, abs_div, div_le_iff₀ (abs_pos.2 (hL j).1)] at hx
      exact hx.trans (mul_le_mul_of_nonneg_left (hL j).2 hM0)
    have b0 := phase_bounds _ _ 0 hb 0
    have b1 := phase_bounds _ _ 0 hb 1
    exact ⟨kept_integrate h1 hd hd (hf 0) (add_comm _ _) b0, kept_integrate h2 hq hq (hf 1) (add_comm _ _) b1⟩
  · exact ⟨kept_control h1 hd, kept_control h2 hq⟩

/-- the estimated flux: one call -/
theorem flux_bounded (f : Flux) {X rho : ℝ} (hrho : 0 ≤ rho) (s : ℕ → ℝ) (hs : ∀ j, |s (f.abc j)| ≤ X) (hX : 0 ≤ X)
    (hstab : (1 - f.tau * (f.rr / f.lr)) ^ 2 + (f.tau * (s f.omega * f.p)) ^ 2 ≤ rho ^ 2) (psi : ℂ) :
    ‖f.estimate psi s‖ ≤ rho * ‖psi‖ + 4 * X * |f.rr * f.lm / f.lr * f.tau| := by
  have e : f.estimate psi s = psi * (⟨1 - f.tau * (f.rr / f.lr), f.tau * (s f.omega * f.p)⟩ : ℂ)
      + (⟨Motor.t23 (fun j => s (f.abc j)) 0, Motor.t23 (fun j => s (f.abc j)) 1⟩ : ℂ) * ((f.rr * f.lm / f.lr * f.tau : ℝ) : ℂ) := by
    have h1 : (⟨1 - f.tau * (f.rr / f.lr), f.tau * (s f.omega * f.p)⟩ : ℂ) = 1 - (f.tau : ℂ) * ⟨f.rr / f.lr, -(s f.omega * f.p)⟩ := by
      apply Complex.ext <;> simp
    rw [h1]
    simp only [Flux.estimate]
    push_cast
    ring
  rw [e]
  refine (norm_add_le _ _).trans (add_le_add ?_ ?_)
  · rw [norm_mul, mul_comm]
    refine mul_le_mul_of_nonneg_right ?_ (norm_nonneg _)
    have : ‖(⟨1 - f.tau * (f.rr / f.lr), f.tau * (s f.omega * f.p)⟩ : ℂ)‖ ^ 2 ≤ rho ^ 2 := by
      rw [← Complex.normSq_eq_norm_sq, Complex.normSq_mk]
      nlinarith
    exact (sq_le_sq₀ (norm_nonneg _) hrho).1 this
  · rw [norm_mul, Complex.norm_real, Real.norm_eq_abs]
    refine mul_le_mul_of_nonneg_right ?_ (abs_nonneg _)
    refine (Complex.norm_le_abs_re_add_abs_im _).trans ?_
    have a := abs_le.1 (hs 0)
    have b := abs_le.1 (hs 1)
    have d := abs_le.1 (hs 2)
    have r3 : √3 ≤ 2 := by rw [Real.sqrt_le_left (by norm_num)]; norm_num
    have r0 := Real.sqrt_nonneg 3
    have t0 : |Motor.t23 (fun j => s (f.abc j)) 0| ≤ 2 * X := by
      have : Motor.t23 (fun j => s (f.abc j)) 0 = 2 / 3 * s (f.abc 0) - 1 / 3 * s (f.abc 1) - 1 / 3 * s (f.abc 2) := by
        simp [Motor.t23, Matrix.mulVec, dotProduct, Fin.sum_univ_succ]; ring
      rw [this, abs_le]
      constructor <;> linarith
    have t1 : |Motor.t23 (fun j => s (f.abc j)) 1| ≤ 2 * X := by
      have : Motor.t23 (fun j => s (f.abc j)) 1 = √3 / 3 * (s (f.abc 1) - s (f.abc 2)) := by
        simp [Motor.t23, Matrix.mulVec, dotProduct, Fin.sum_univ_succ]; ring
      rw [this, abs_mul, abs_of_nonneg (by positivity)]
      have h1 : |s (f.abc 1) - s (f.abc 2)| ≤ 2 * X := abs_diff (hs 1) (hs 2)
      have h0 := abs_nonneg (s (f.abc 1) - s (f.abc 2))
      nlinarith
    simpa using (by linarith : |Motor.t23 (fun j => s (f.abc j)) 0| + |Motor.t23 (fun j => s (f.abc j)) 1| ≤ 4 * X)

/-- What holds all the time for the controllers of induction motors, as long as the speed is below the one at which the estimation of the
flux becomes unstable (C59). -/
theorem im_invariant (c : ImFoc) (g e : Gains ℝ) (E W rho : ℝ) (hE : 0 ≤ E) (hlim : ∀ j, c.limits (c.abc j) ≠ 0)
    (hrho : 0 ≤ rho ∧ rho < 1) (hstab : (1 - c.flux.tau * (c.flux.rr / c.flux.lr)) ^ 2 + (c.flux.tau * (W * c.flux.p)) ^ 2 ≤ rho ^ 2) :
    ∃ (B : ℝ) (inv : (Cont ℝ × Cont ℝ) × ℂ → Prop), inv ((g.new, e.new), 0) ∧ (∀ st, inv st → inv (imFocReset st)) ∧
      (∀ st (s : ℕ → ℝ) (rd rq : ℝ), inv st → (∀ j, |s j| ≤ E) → |rd| ≤ E → |rq| ≤ E → |s c.flux.omega * c.limits c.flux.omega| ≤ W →
        inv ((c.currents st.1 s (rd * c.limits c.iSd) (rq * c.limits c.iSq) (c.flux.estimate st.2 fun i => s i * c.limits i)).1,
          c.flux.estimate st.2 fun i => s i * c.limits i)) ∧
      ∀ st, inv st → |iPart st.1.1| ≤ B ∧ |iPart st.1.2| ≤ B ∧ ‖st.2‖ ≤ B := by
  let X := E * (|c.limits c.omega| + |c.limits c.iSd| + |c.limits c.iSq| + (|c.limits (c.flux.abc 0)| + |c.limits (c.flux.abc 1)|
    + |c.limits (c.flux.abc 2)|))
  have hX : 0 ≤ X := by simp only [X]; positivity
  have hXb : ∀ (x : ℝ) (k : ℕ), |x| ≤ E → |c.limits k| ≤ |c.limits c.omega| + |c.limits c.iSd| + |c.limits c.iSq|
      + (|c.limits (c.flux.abc 0)| + |c.limits (c.flux.abc 1)| + |c.limits (c.flux.abc 2)|) → |x * c.limits k| ≤ X := by
    intro x k hx hk
    rw [abs_mul]
    exact mul_le_mul hx hk (abs_nonneg _) hE
  have n1 := abs_nonneg (c.limits c.omega)
  have n2 := abs_nonneg (c.limits c.iSd)
  have n3 := abs_nonneg (c.limits c.iSq)
  have n4 := abs_nonneg (c.limits (c.flux.abc 0))
  have n5 := abs_nonneg (c.limits (c.flux.abc 1))
  have n6 := abs_nonneg (c.limits (c.flux.abc 2))
  let D := 4 * X * |c.flux.rr * c.flux.lm / c.flux.lr * c.flux.tau|
  have hD : 0 ≤ D := by simp only [D]; positivity
  have h1r : 0 < 1 - rho := by linarith [hrho.2]
  let P := D / (1 - rho)
  have hP : 0 ≤ P := by simp only [P]; positivity
  have hPD : rho * P + D = P := by
    simp only [P]
    field_simp
    ring
  obtain ⟨F, hF, hf⟩ := im_coupling_bounded c hX hP
  set M := max |c.lo| |c.hi| with hM
  have hM0 : 0 ≤ M := by rw [hM]; positivity
  let L := |c.limits (c.abc 0)| + |c.limits (c.abc 1)| + |c.limits (c.abc 2)|
  have hL : ∀ j, c.limits (c.abc j) ≠ 0 ∧ |c.limits (c.abc j)| ≤ L := by
    intro j
    refine ⟨hlim j, ?_⟩
    have m0 := abs_nonneg (c.limits (c.abc 0))
    have m1 := abs_nonneg (c.limits (c.abc 1))
    have m2 := abs_nonneg (c.limits (c.abc 2))
    simp only [L]
    fin_cases j <;> simp <;> linarith
  have hL0 : 0 ≤ L := by simp only [L]; positivity
  have hML : 0 ≤ 4 * (M * L) := by positivity
  refine ⟨max (max (partBound g (4 * (M * L)) F X) (partBound e (4 * (M * L)) F X)) P,
    fun st => Kept g (4 * (M * L)) F X st.1.1 ∧ Kept e (4 * (M * L)) F X st.1.2 ∧ ‖st.2‖ ≤ P,
    ⟨kept_new g hML hF hX, kept_new e hML hF hX, by simpa using hP⟩,
    fun st h => ⟨kept_reset hML hF hX h.1, kept_reset hML hF hX h.2.1, by simpa [imFocReset] using hP⟩, ?_,
    fun st h => ⟨h.1.2.1.trans ((le_max_left _ _).trans (le_max_left _ _)), h.2.1.2.1.trans ((le_max_right _ _).trans (le_max_left _ _)),
      h.2.2.trans (le_max_right _ _)⟩⟩
  rintro st s rd rq ⟨h1, h2, h3⟩ hs hrd hrq hw
  have hpsi : ‖c.flux.estimate st.2 fun i => s i * c.limits i‖ ≤ P := by
    refine (flux_bounded c.flux hrho.1 _ (X := X) (fun j => ?_) hX (le_trans ?_ hstab) st.2).trans ?_
    · refine hXb _ _ (hs _) ?_
      fin_cases j <;> simp <;> linarith
    · have h4 : (c.flux.tau * (s c.flux.omega * c.limits c.flux.omega * c.flux.p)) ^ 2 ≤ (c.flux.tau * (W * c.flux.p)) ^ 2 := by
        have h5 : (s c.flux.omega * c.limits c.flux.omega) ^ 2 ≤ W ^ 2 := sq_le_sq.2 (hw.trans (le_abs_self W))
        have e1 : (c.flux.tau * (s c.flux.omega * c.limits c.flux.omega * c.flux.p)) ^ 2
            = (c.flux.tau * c.flux.p) ^ 2 * (s c.flux.omega * c.limits c.flux.omega) ^ 2 := by ring
        have e2 : (c.flux.tau * (W * c.flux.p)) ^ 2 = (c.flux.tau * c.flux.p) ^ 2 * W ^ 2 := by ring
        rw [e1, e2]
        exact mul_le_mul_of_nonneg_left h5 (sq_nonneg _)
      linarith
    · have := mul_le_mul_of_nonneg_left h3 hrho.1
      show _ + D ≤ P
      linarith
  have bd : |rd * c.limits c.iSd - s c.iSd * c.limits c.iSd| ≤ 2 * X :=
    abs_diff (hXb _ _ hrd (by linarith)) (hXb _ _ (hs _) (by linarith))
  have bq : |rq * c.limits c.iSq - s c.iSq * c.limits c.iSq| ≤ 2 * X :=
    abs_diff (hXb _ _ hrq (by linarith)) (hXb _ _ (hs _) (by linarith))
  have k := im_kept c g e le_rfl hM0 hL h1 h2 (psi := c.flux.estimate st.2 fun i => s i * c.limits i) bd bq
    (hf _ _ (hXb _ _ (hs _) (by linarith)) (hXb _ _ (hs _) (by linarith)) (hXb _ _ (hs _) (by linarith))
      (by rw [abs_of_nonneg (norm_nonneg _)]; exact hpsi))
  exact ⟨k.1, k.2, hpsi⟩

/-- C126 for the field oriented control of induction motors, as long as the speed is below the one at which the estimation of the flux
becomes unstable (C59).  Missing for C126: higher speeds, for which it is violated (`c126_im_violated`). -/
theorem c126_im_partial (c : ImFoc) (refD refQ : ℕ) (g e : Gains ℝ) (E W rho : ℝ) (hE : 0 ≤ E) (hlim : ∀ j, c.limits (c.abc j) ≠ 0)
    (hrho : 0 ≤ rho ∧ rho < 1) (hstab : (1 - c.flux.tau * (c.flux.rr / c.flux.lr)) ^ 2 + (c.flux.tau * (W * c.flux.p)) ^ 2 ≤ rho ^ 2) :
    ∃ B, ∀ calls : List (Asked ℝ), (∀ a ∈ calls, a.Bounded E ∧ ∀ s r, a = .control s r → |s c.flux.omega * c.limits c.flux.omega| ≤ W) →
      |iPart (imAfter c refD refQ ((g.new, e.new), 0) calls).1.1| ≤ B ∧ |iPart (imAfter c refD refQ ((g.new, e.new), 0) calls).1.2| ≤ B ∧
      ‖(imAfter c refD refQ ((g.new, e.new), 0) calls).2‖ ≤ B := by
  obtain ⟨B, inv, h0, h1, h2, h3⟩ := im_invariant c g e E W rho hE hlim hrho hstab
  have main : ∀ calls : List (Asked ℝ),
      (∀ a ∈ calls, a.Bounded E ∧ ∀ s r, a = .control s r → |s c.flux.omega * c.limits c.flux.omega| ≤ W) →
      ∀ st, inv st → inv (imAfter c refD refQ st calls) := by
    intro calls
    induction calls with
    | nil => exact fun _ st h => h
    | cons a l ih =>
      intro hb st h
      have hl : ∀ a ∈ l, a.Bounded E ∧ ∀ s r, a = .control s r → |s c.flux.omega * c.limits c.flux.omega| ≤ W :=
        fun b hb' => hb b (List.mem_cons_of_mem _ hb')
      cases a with
      | reset => exact ih hl _ (h1 _ h)
      | control s r =>
        have hsr := (hb _ List.mem_cons_self).1
        exact ih hl _ (h2 st s _ _ h (fun j => (hsr j).1) (hsr _).2 (hsr _).2 ((hb _ List.mem_cons_self).2 s r rfl))
  exact ⟨B, fun calls hb => h3 _ (main calls hb _ h0)⟩

/-- the cascade of an induction motor after a series of calls -/
noncomputable def cimAfter {θ : Type} (c : ImFoc) (speed : Bool) (o : Overlaid) (conv : ℝ → Conversion θ) (zero : θ → θ) :
    ((Cont ℝ × Cont ℝ) × ℂ) × Stage ℝ × θ → List (Asked ℝ) → ((Cont ℝ × Cont ℝ) × ℂ) × Stage ℝ × θ
  | st, [] => st
  | st, .control s r :: l => cimAfter c speed o conv zero (c.cascaded speed o conv st s r).1 l
  | st, .reset :: l => cimAfter c speed o conv zero (imFocReset st.1, st.2.1.reset, zero st.2.2) l

/-- C126 for the cascaded control of induction motors, for every conversion of torques that answers with bounded currents; the speed as in
`c126_im_partial`. -/
theorem c126_im_cascaded_partial {θ : Type} (c : ImFoc) (speed : Bool) (o : Overlaid) (conv : ℝ → Conversion θ) (zero : θ → θ)
    (g e w : Gains ℝ) (t : θ) (E W rho : ℝ) (hE : 0 ≤ E)
    (hconv : ∀ n x s y, |((conv n).control x s y).2.1| ≤ E ∧ |((conv n).control x s y).2.2| ≤ E) (hlim : ∀ j, c.limits (c.abc j) ≠ 0)
    (hrho : 0 ≤ rho ∧ rho < 1) (hstab : (1 - c.flux.tau * (c.flux.rr / c.flux.lr)) ^ 2 + (c.flux.tau * (W * c.flux.p)) ^ 2 ≤ rho ^ 2) :
    ∃ B, ∀ calls : List (Asked ℝ), (∀ a ∈ calls, a.Bounded E ∧ ∀ s r, a = .control s r → |s c.flux.omega * c.limits c.flux.omega| ≤ W) →
      ∃ x y psi z t', cimAfter c speed o conv zero (((g.new, e.new), 0), .cont w.new, t) calls = (((x, y), psi), .cont z, t') ∧
        |iPart x| ≤ B ∧ |iPart y| ≤ B ∧ |iPart z| ≤ B := by
  obtain ⟨B, inv, h0, h1, h2, h3⟩ := im_invariant c g e E W rho hE hlim hrho hstab
  have hN : 0 ≤ |o.low| + |o.high| := by positivity
  have main : ∀ calls : List (Asked ℝ),
      (∀ a ∈ calls, a.Bounded E ∧ ∀ s r, a = .control s r → |s c.flux.omega * c.limits c.flux.omega| ≤ W) →
      ∀ st z t, inv st → Kept w (|o.low| + |o.high|) 0 E z → ∃ st' z' t',
        cimAfter c speed o conv zero (st, .cont z, t) calls = (st', .cont z', t') ∧ inv st' ∧ Kept w (|o.low| + |o.high|) 0 E z' := by
    intro calls
    induction calls with
    | nil => exact fun _ st z t h k => ⟨st, z, t, rfl, h, k⟩
    | cons a l ih =>
      intro hb st z t h k
      have hl : ∀ a ∈ l, a.Bounded E ∧ ∀ s r, a = .control s r → |s c.flux.omega * c.limits c.flux.omega| ≤ W :=
        fun b hb' => hb b (List.mem_cons_of_mem _ hb')
      cases a with
      | reset => exact ih hl _ _ _ (h1 _ h) (kept_reset hN le_rfl hE k)
      | control s r =>
        have hsr := (hb _ List.mem_cons_self).1
        have hw := (hb _ List.mem_cons_self).2 s r rfl
        cases speed with
        | false =>
          exact ih hl _ _ _ (h2 st s _ _ h (fun j => (hsr j).1) (hconv _ _ _ _).2 (hconv _ _ _ _).1 hw) k
        | true =>
          obtain ⟨z', ez, kz⟩ := overlaid_kept o w k (abs_diff (hsr 0).2 (hsr o.omega).1)
          have := ih hl _ z' ((conv ‖c.flux.estimate st.2 fun i => s i * c.limits i‖).control t s ((o.control (.cont z) s (r 0)).2 * o.limit)).1
            (h2 st s _ _ h (fun j => (hsr j).1) (hconv ‖c.flux.estimate st.2 fun i => s i * c.limits i‖ t s
              ((o.control (.cont z) s (r 0)).2 * o.limit)).2 (hconv ‖c.flux.estimate st.2 fun i => s i * c.limits i‖ t s
              ((o.control (.cont z) s (r 0)).2 * o.limit)).1 hw) kz
          rw [← ez] at this
          exact this
  refine ⟨max B (partBound w (|o.low| + |o.high|) 0 E), fun calls hb => ?_⟩
  obtain ⟨st', z', t', e1, k1, k2⟩ := main calls hb _ w.new t h0 (kept_new w hN le_rfl hE)
  have h4 := h3 _ k1
  exact ⟨st'.1.1, st'.1.2, st'.2, z', t', e1, h4.1.trans (le_max_left _ _), h4.2.1.trans (le_max_left _ _), k2.2.1.trans (le_max_right _ _)⟩

/-- The condition for the default squirrel cage motor (`r_r = 1.355`, `l_r = 0.14962`, 2 pole pairs) and 10 kHz: it is met up to 200 rad/s
of the 418 rad/s of its limit, where it is not. -/
example : (1 - 1 / 10000 * (1355 / 1000 / (14962 / 100000)) : ℝ) ^ 2 + (1 / 10000 * (200 * 2)) ^ 2 < 1 ∧
    ¬ ((1 - 1 / 10000 * (1355 / 1000 / (14962 / 100000)) : ℝ) ^ 2 + (1 / 10000 * (418 * 2)) ^ 2 < 1) := by norm_num

/-! ## Cases -/

/-- the cascade of a permanently excited motor with the gains of an automatic design; states and references between -1 and 1 -/
example : ∃ B, ∀ calls : List (Asked ℚ), (∀ a ∈ calls, a.Bounded 1) → ∃ x y,
    cascAfter ⟨0, 0, 2, 2, 0, -1, 1, -(53 / 100), 53 / 100, 0, 0, 300, 233, 60⟩ (1 / 1000000)
      (.cont (Gains.new ⟨2, 5, none, 1 / 10000⟩), .cont (Gains.new ⟨1, 3, some 2, 1 / 10000⟩)) calls = (.cont x, .cont y) ∧
      |iPart x| ≤ B ∧ |iPart y| ≤ B :=
  c126_cascade _ _ _ _ 1 (by norm_num) (by norm_num)

/-- a conversion with currents of at most 1 -/
example (c : Foc) (o : Overlaid) : ∃ B, ∀ calls : List (Asked ℝ), (∀ a ∈ calls, a.Bounded 1) → ∃ x y z t',
    cfocAfter c .speed o ⟨fun _ _ y => ((), min (max y (-1)) 1, -1 / 2), id⟩ 0
      ((Gains.new ⟨1, 2, none, 1⟩, Gains.new ⟨1, 3, none, 1⟩), .cont (Gains.new ⟨4, 5, none, 1⟩), ()) calls = ((x, y), .cont z, t') ∧
        |iPart x| ≤ B ∧ |iPart y| ≤ B ∧ |iPart z| ≤ B := by
  refine c126_cascaded_foc c .speed o _ 0 _ _ _ () 1 (by norm_num) fun x s y => ⟨?_, by norm_num [abs_le]⟩
  exact abs_le.2 ⟨le_min (le_max_right _ _) (by norm_num), min_le_right _ _⟩

end GEM.Props
