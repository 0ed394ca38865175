import Verif.Props.Reversal
import Verif.Props.OperatingPoint
import Verif.Props.Selection
import Verif.Model.ClosedLoop

/-!
# C137: controllers in the opposite direction

A controller that is asked the same in the opposite direction of rotation answers with the opposite voltages, and the whole drive with its
controller runs in the opposite direction.
-/

set_option linter.unusedSectionVars false

namespace GEM.Props

noncomputable section

open GEM GEM.Sys GEM.Conv GEM.Motor GEM.Solver GEM.Load GEM.Ctl GEM.Closed

/-! ## Statement -/

section statement

variable {κ : Type} {m k j : ℕ}

/-- The answers of a controller to a history of calls; `none` is a reset. -/
def commands (I : Inner κ m k j) : κ → List (Option ((Fin m → ℝ) × (Fin k → ℝ))) → List (Except Err (Fin j → ℝ))
  | _, [] => []
  | st, none :: l => commands I (I.reset st) l
  | st, some (s, r) :: l => (I.control st s r).2 :: commands I (I.control st s r).1 l

/-- Calls in both directions: related states, references with signs. -/
inductive Reversed (S : (Fin m → ℝ) → (Fin m → ℝ) → Prop) (rs : Fin k → ℝ) :
    Option ((Fin m → ℝ) × (Fin k → ℝ)) → Option ((Fin m → ℝ) × (Fin k → ℝ)) → Prop
  | reset : Reversed S rs none none
  | ask {s s' : Fin m → ℝ} (h : S s s') (r : Fin k → ℝ) : Reversed S rs (some (s, r)) (some (s', fun i => rs i * r i))

/-- Whatever the history, the answers in the opposite direction are the images of the answers (the same exceptions included). -/
def Opposed (I : Inner κ m k j) (st : κ) (S : (Fin m → ℝ) → (Fin m → ℝ) → Prop) (rs : Fin k → ℝ) (τ : (Fin j → ℝ) → Fin j → ℝ) : Prop :=
  ∀ l l', List.Forall₂ (Reversed S rs) l l' → List.Forall₂ (Echo fun u u' => u' = τ u) (commands I st l) (commands I st l')

/-- Controllers in pairs. -/
structure MirrorInner (I : Inner κ m k j) (rel : κ → κ → Prop) (S : (Fin m → ℝ) → (Fin m → ℝ) → Prop) (rs : Fin k → ℝ)
    (τ : (Fin j → ℝ) → Fin j → ℝ) : Prop where
  reset : ∀ c c', rel c c' → rel (I.reset c) (I.reset c')
  control : ∀ c c' s s' r, rel c c' → S s s' → rel (I.control c s r).1 (I.control c' s' fun i => rs i * r i).1 ∧
    Echo (fun u u' => u' = τ u) (I.control c s r).2 (I.control c' s' fun i => rs i * r i).2

theorem MirrorInner.opposed {I : Inner κ m k j} {rel : κ → κ → Prop} {S : (Fin m → ℝ) → (Fin m → ℝ) → Prop} {rs : Fin k → ℝ}
    {τ : (Fin j → ℝ) → Fin j → ℝ} (h : MirrorInner I rel S rs τ) {st : κ} (h0 : rel st st) : Opposed I st S rs τ := by
  have key : ∀ l l', List.Forall₂ (Reversed S rs) l l' → ∀ c c', rel c c' →
      List.Forall₂ (Echo fun u u' => u' = τ u) (commands I c l) (commands I c' l') := by
    intro l l' hl
    induction hl with
    | nil => exact fun _ _ _ => .nil
    | cons h1 _ ih =>
      intro c c' hc
      cases h1 with
      | reset => exact ih _ _ (h.reset c c' hc)
      | ask hs r => exact .cons (h.control c c' _ _ r hc hs).2 (ih _ _ (h.control c c' _ _ r hc hs).1)
  exact fun l l' hl => key l l' hl st st h0

end statement

/-! ## Stages -/

section stages

variable {m n : ℕ}

/-- signs -/
def Sign (x : ℝ) : Prop := x = 1 ∨ x = -1

theorem Sign.sq {x : ℝ} (h : Sign x) : x * x = 1 := by
  rcases h with rfl | rfl <;> norm_num

theorem Sign.ne {x : ℝ} (h : Sign x) : x ≠ 0 := by
  rcases h with rfl | rfl <;> norm_num

/-- clipping that does not depend on the direction -/
def OddClip (rs : Fin n → ℝ) (cl : Clip n ℝ) : Prop := ∀ r, cl.call (fun i => rs i * r i) = fun i => rs i * cl.call r i

theorem clip_odd (x : ℝ) {h : ℝ} (h0 : 0 ≤ h) : clip (-x) (-h) h = -clip x (-h) h := by
  unfold clip
  rcases le_total x (-h) with a | a <;> rcases le_total x h with b | b
  · rw [max_eq_left (by linarith), min_eq_right (by linarith), max_eq_right a, min_eq_left (by linarith), neg_neg]
  · have : h = 0 := by linarith
    subst this
    have : x = 0 := by linarith
    simp [this]
  · rw [max_eq_left (by linarith), min_eq_left (by linarith), max_eq_left a, min_eq_left b]
  · rw [max_eq_right (by linarith), min_eq_left (by linarith), max_eq_left a, min_eq_right b]

/-- the range of a reversed quantity is symmetric -/
def EvenRange (rs lo hi : Fin n → ℝ) : Prop := ∀ i, rs i = 1 ∨ rs i = -1 ∧ lo i = -hi i ∧ 0 ≤ hi i

theorem EvenRange.clip {rs lo hi : Fin n → ℝ} (h : EvenRange rs lo hi) (i : Fin n) (x : ℝ) :
    clip (rs i * x) (lo i) (hi i) = rs i * clip x (lo i) (hi i) := by
  rcases h i with e | ⟨e, e1, e2⟩
  · rw [e, one_mul, one_mul]
  · rw [e, e1, neg_one_mul, neg_one_mul, clip_odd x e2]

theorem odd_absolute {rs lo hi : Fin n → ℝ} (h : EvenRange rs lo hi) : OddClip rs (.absolute lo hi) := by
  intro r
  funext i
  exact h.clip i (r i)

theorem shorten_mul (q margin c x : ℝ) : shorten q margin (c * x) = c * shorten q margin x := by
  unfold shorten
  split
  · rfl
  · ring

theorem odd_squared {rs : Fin n → ℝ} (h : ∀ i, Sign (rs i)) (limits : Fin n → ℝ) (margin : ℝ) : OddClip rs (.squared limits margin) := by
  intro r
  funext i
  have e : (∑ j, (rs j * r j / limits j) ^ 2) = ∑ j, (r j / limits j) ^ 2 := by
    refine Finset.sum_congr rfl fun j _ => ?_
    rw [div_pow, mul_pow, pow_two (rs j), (h j).sq, one_mul, div_pow]
  simp only [Clip.call, e, shorten_mul]

theorem odd_combined {rs : Fin n → ℝ} (h : ∀ i, Sign (rs i)) (together : Fin n → Bool) (limits : Fin n → ℝ) {lo hi : Fin n → ℝ} (margin : ℝ)
    (he : ∀ i, together i = true ∨ rs i = 1 ∨ rs i = -1 ∧ lo i = -hi i ∧ 0 ≤ hi i) : OddClip rs (.combined together limits lo hi margin) := by
  intro r
  funext i
  have e : (∑ j, if together j then (rs j * r j / limits j) ^ 2 else 0) = ∑ j, if together j then (r j / limits j) ^ 2 else 0 := by
    refine Finset.sum_congr rfl fun j _ => ?_
    rw [div_pow, mul_pow, pow_two (rs j), (h j).sq, one_mul, div_pow]
  simp only [Clip.call, e, shorten_mul]
  rcases he i with h1 | h1 | ⟨h1, h2, h3⟩
  · simp only [h1, if_true]
  · rw [h1]
    split <;> simp only [one_mul]
  · rw [h1, h2]
    split
    · rfl
    · rw [neg_one_mul, neg_one_mul, clip_odd _ h3]

/-- The parts of a current controller fit the signs `rs` of the axes; `S` relates the states, `τ` the answers. -/
structure CurrentFits {j : ℕ} (T : (Fin m → ℝ) → (Fin n → ℝ) → Fin j → ℝ) (S : (Fin m → ℝ) → (Fin m → ℝ) → Prop) (rs : Fin n → ℝ)
    (τ : (Fin j → ℝ) → Fin j → ℝ) (c : Current n m ℝ) : Prop where
  sign : ∀ i, Sign (rs i)
  idx : ∀ s s' i, S s s' → s' (c.base.idx i) = rs i * s (c.base.idx i)
  idx' : ∀ s s' i, S s s' → s' (c.idx i) = rs i * s (c.idx i)
  ff : ∀ f, c.ff = some f → ∀ s s' u, S s s' → f s' (fun i => rs i * u i) = fun i => rs i * f s u i
  clip : OddClip rs c.clipping
  out : ∀ s s' u, S s s' → T s' (fun i => rs i * u i) = τ (T s u)

/-- base controllers in pairs -/
structure BaseTwin (rs : Fin n → ℝ) (b b' : Base n m ℝ) : Prop where
  kind : b'.kind = b.kind
  p : b'.pGain = b.pGain
  i : b'.iGain = b.iGain
  d : b'.dGain = b.dGain
  tau : b'.tau = b.tau
  idx : b'.idx = b.idx
  integ : b'.integrator = b.integrator.map fun v i => rs i * v i
  last : b'.last = fun i => rs i * b.last i

/-- current controllers in pairs -/
structure CurrentTwin {j : ℕ} (T : (Fin m → ℝ) → (Fin n → ℝ) → Fin j → ℝ) (S : (Fin m → ℝ) → (Fin m → ℝ) → Prop) (rs : Fin n → ℝ)
    (τ : (Fin j → ℝ) → Fin j → ℝ) (c c' : Current n m ℝ) : Prop where
  fits : CurrentFits T S rs τ c
  base : BaseTwin rs c.base c'.base
  ff : c'.ff = c.ff
  clip : c'.clipping = c.clipping
  tau : c'.tau = c.tau
  idx : c'.idx = c.idx

theorem base_integ {rs : Fin n → ℝ} {b b' : Base n m ℝ} (h : BaseTwin rs b b') (i : Fin n) : b'.integ i = rs i * b.integ i := by
  unfold Base.integ
  rw [h.integ]
  cases b.integrator <;> simp

theorem base_control_mirror {rs : Fin n → ℝ} {b b' : Base n m ℝ} (h : BaseTwin rs b b') {s s' : Fin m → ℝ}
    (hs : ∀ i, s' (b.idx i) = rs i * s (b.idx i)) (r : Fin n → ℝ) :
    BaseTwin rs (b.control s r).1 (b'.control s' fun i => rs i * r i).1 ∧
    (b'.control s' fun i => rs i * r i).2 = fun i => rs i * (b.control s r).2 i := by
  have he : (b'.error s' fun i => rs i * r i) = fun i => rs i * b.error s r i := by
    funext i
    simp only [Base.error, h.idx, hs]
    ring
  have hp : (b'.pPart s' fun i => rs i * r i) = fun i => rs i * b.pPart s r i := by
    funext i
    simp only [Base.pPart, h.p, he]
    ring
  have hi : b'.iPart = fun i => rs i * b.iPart i := by
    funext i
    simp only [Base.iPart, h.i, base_integ h]
    ring
  have hd : (b'.dPart s' fun i => rs i * r i) = fun i => rs i * b.dPart s r i := by
    funext i
    simp only [Base.dPart, h.d, h.tau, h.last, he]
    ring
  unfold Base.control
  rw [h.kind]
  cases e : b.kind with
  | P => exact ⟨h, hp⟩
  | I => exact ⟨h, hi⟩
  | PI =>
    refine ⟨h, ?_⟩
    simp only [hp, hi]
    funext i
    ring
  | PID =>
    refine ⟨⟨rfl, h.p, h.i, h.d, h.tau, h.idx, h.integ, he⟩, ?_⟩
    simp only [hp, hi, hd]
    funext i
    ring

theorem base_integrate_mirror {rs : Fin n → ℝ} {b b' : Base n m ℝ} (h : BaseTwin rs b b') (d : Fin n → ℝ) :
    BaseTwin rs (b.integrate d).1 (b'.integrate fun i => rs i * d i).1 ∧ (b'.integrate fun i => rs i * d i).2 = (b.integrate d).2 := by
  unfold Base.integrate
  rw [h.kind, h.integ]
  cases b.kind.integrates with
  | false => exact ⟨h, rfl⟩
  | true =>
    cases e : b.integrator with
    | none =>
      simp only [if_true, Option.map_none]
      split
      · exact ⟨⟨rfl, h.p, h.i, h.d, h.tau, h.idx, rfl, h.last⟩, rfl⟩
      · exact ⟨h, rfl⟩
    | some v =>
      simp only [if_true, Option.map_some]
      refine ⟨⟨rfl, h.p, h.i, h.d, h.tau, h.idx, ?_, h.last⟩, trivial⟩
      simp only [Option.map_some, mul_add]

theorem base_reset_mirror {rs : Fin n → ℝ} {b b' : Base n m ℝ} (h : BaseTwin rs b b') : BaseTwin rs b.reset b'.reset := by
  unfold Base.reset
  rw [h.kind]
  split
  · exact ⟨rfl, h.p, h.i, h.d, h.tau, h.idx, by simp, h.last⟩
  · exact h

theorem windup_odd {rs : Fin n → ℝ} (hr : ∀ i, Sign (rs i)) (tau : ℝ) {idx : Fin n → Fin m} {s s' : Fin m → ℝ}
    (hs : ∀ i, s' (idx i) = rs i * s (idx i)) (r d : Fin n → ℝ) :
    antiWindup tau idx s' (fun i => rs i * r i) (fun i => rs i * d i) = fun i => rs i * antiWindup tau idx s r d i := by
  funext i
  simp only [antiWindup, hs, mul_eq_zero, (hr i).ne, false_or]
  ring

theorem difference_odd {rs : Fin n → ℝ} {cl : Clip n ℝ} (h : OddClip rs cl) (u : Fin n → ℝ) :
    (cl.difference fun i => rs i * u i) = fun i => rs i * cl.difference u i := by
  funext i
  simp only [Clip.difference, h u]
  ring

theorem current_mirror {j : ℕ} {T : (Fin m → ℝ) → (Fin n → ℝ) → Fin j → ℝ} {S : (Fin m → ℝ) → (Fin m → ℝ) → Prop} {rs : Fin n → ℝ}
    {τ : (Fin j → ℝ) → Fin j → ℝ} {c c' : Current n m ℝ} (h : CurrentTwin T S rs τ c c') {s s' : Fin m → ℝ} (hs : S s s') (r : Fin n → ℝ) :
    CurrentTwin T S rs τ (c.control T s r).1 (c'.control T s' fun i => rs i * r i).1 ∧
    Echo (fun u u' => u' = τ u) (c.control T s r).2 (c'.control T s' fun i => rs i * r i).2 := by
  obtain ⟨b1, b2⟩ := base_control_mirror h.base (fun i => h.fits.idx s s' i hs) r
  have hraw : (c'.raw s' fun i => rs i * r i) = fun i => rs i * c.raw s r i := by
    unfold Current.raw
    rw [h.ff, b2]
    cases e : c.ff with
    | none => rfl
    | some f => exact h.fits.ff f e s s' _ hs
  obtain ⟨i1, i2⟩ := base_integrate_mirror b1 (antiWindup c.tau c.idx s r (c.clipping.difference (c.raw s r)))
  have hw : antiWindup c'.tau c'.idx s' (fun i => rs i * r i) (c'.clipping.difference (c'.raw s' fun i => rs i * r i)) =
      fun i => rs i * antiWindup c.tau c.idx s r (c.clipping.difference (c.raw s r)) i := by
    rw [h.tau, h.idx, h.clip, hraw, difference_odd h.fits.clip]
    exact windup_odd h.fits.sign _ (fun i => h.fits.idx' s s' i hs) _ _
  unfold Current.control
  simp only [hw, i2]
  refine ⟨⟨⟨h.fits.sign, ?_, h.fits.idx', h.fits.ff, h.fits.clip, h.fits.out⟩, i1, h.ff, h.clip, h.tau, h.idx⟩, ?_⟩
  · have e : (((c.base.control s r).1.integrate (antiWindup c.tau c.idx s r (c.clipping.difference (c.raw s r)))).1).idx = c.base.idx := by
      have e1 : (c.base.control s r).1.idx = c.base.idx := by
        unfold Base.control
        cases c.base.kind <;> rfl
      unfold Base.integrate
      rw [← e1]
      split
      · split
        · rfl
        · split <;> rfl
      · rfl
    simp only [e]
    exact h.fits.idx
  · cases ((c.base.control s r).1.integrate (antiWindup c.tau c.idx s r (c.clipping.difference (c.raw s r)))).2 with
    | error e => rfl
    | ok _ =>
      simp only [Except.map, Echo, hraw]
      exact h.fits.out s s' _ hs

theorem currentInner_mirror {j : ℕ} {T : (Fin m → ℝ) → (Fin n → ℝ) → Fin j → ℝ} {S : (Fin m → ℝ) → (Fin m → ℝ) → Prop} {rs : Fin n → ℝ}
    {τ : (Fin j → ℝ) → Fin j → ℝ} : MirrorInner (currentInner T) (CurrentTwin T S rs τ) S rs τ where
  reset c c' h := by
    refine ⟨⟨h.fits.sign, ?_, h.fits.idx', h.fits.ff, h.fits.clip, h.fits.out⟩, base_reset_mirror h.base, h.ff, h.clip, h.tau, h.idx⟩
    have e : c.base.reset.idx = c.base.idx := by
      unfold Base.reset
      split <;> rfl
    simp only [currentInner, Current.reset, e]
    exact h.fits.idx
  control c c' s s' r h hs := by
    obtain ⟨h1, h2⟩ := current_mirror h hs r
    have store : ∀ (x : Current n m ℝ) (e : Except Err (Fin j → ℝ)), (x.store e).base = x.base ∧ (x.store e).ff = x.ff ∧
        (x.store e).clipping = x.clipping ∧ (x.store e).tau = x.tau ∧ (x.store e).idx = x.idx := by
      intro x e
      cases e <;> exact ⟨rfl, rfl, rfl, rfl, rfl⟩
    simp only [currentInner, Current.controlTop]
    refine ⟨?_, h2⟩
    obtain ⟨a1, a2, a3, a4, a5⟩ := store (c.control T s r).1 (c.control T s r).2
    obtain ⟨b1, b2, b3, b4, b5⟩ := store (c'.control T s' fun i => rs i * r i).1 (c'.control T s' fun i => rs i * r i).2
    refine ⟨⟨h1.fits.sign, ?_, ?_, ?_, ?_, h1.fits.out⟩, ?_, ?_, ?_, ?_, ?_⟩
    · rw [a1]
      exact h1.fits.idx
    · rw [a5]
      exact h1.fits.idx'
    · rw [a2]
      exact h1.fits.ff
    · rw [a3]
      exact h1.fits.clip
    · rw [a1, b1]
      exact h1.base
    · rw [a2, b2]
      exact h1.ff
    · rw [a3, b3]
      exact h1.clip
    · rw [a4, b4]
      exact h1.tau
    · rw [a5, b5]
      exact h1.idx

/-- a controller that has not been used since the last reset: nothing integrated -/
def NewBase (b : Base n m ℝ) : Prop := (b.integrator = none ∨ b.integrator = some 0) ∧ b.last = 0

theorem new_base {b : Base n m ℝ} (h : NewBase b) (rs : Fin n → ℝ) : BaseTwin rs b b := by
  refine ⟨rfl, rfl, rfl, rfl, rfl, rfl, ?_, ?_⟩
  · rcases h.1 with e | e <;> rw [e] <;> simp
    rfl
  · rw [h.2]
    funext i
    simp

theorem new_current {j : ℕ} {T : (Fin m → ℝ) → (Fin n → ℝ) → Fin j → ℝ} {S : (Fin m → ℝ) → (Fin m → ℝ) → Prop} {rs : Fin n → ℝ}
    {τ : (Fin j → ℝ) → Fin j → ℝ} {c : Current n m ℝ} (h : CurrentFits T S rs τ c) (hn : NewBase c.base) : CurrentTwin T S rs τ c c :=
  ⟨h, new_base hn rs, rfl, rfl, rfl, rfl⟩

/-- Operation points in pairs: `tq` is the sign of the torque. -/
structure MirrorOps {σ : Type} (ops : Closed.Ops σ m n) (rel : σ → σ → Prop) (S : (Fin m → ℝ) → (Fin m → ℝ) → Prop) (tq : ℝ)
    (rs : Fin n → ℝ) : Prop where
  reset : ∀ c c', rel c c' → rel (ops.reset c) (ops.reset c')
  select : ∀ c c' s s' t, rel c c' → S s s' → rel (ops.select c s t).1 (ops.select c' s' (tq * t)).1 ∧
    Echo (fun i i' => i' = fun k => rs k * i k) (ops.select c s t).2 (ops.select c' s' (tq * t)).2

theorem torqueInner_mirror {σ : Type} {j : ℕ} {T : (Fin m → ℝ) → (Fin n → ℝ) → Fin j → ℝ} {S : (Fin m → ℝ) → (Fin m → ℝ) → Prop}
    {rs : Fin n → ℝ} {τ : (Fin j → ℝ) → Fin j → ℝ} {ops : Closed.Ops σ m n} {rel : σ → σ → Prop} {tq : ℝ} {cl : Clip n ℝ}
    (ho : MirrorOps ops rel S tq rs) (hc : OddClip rs cl) :
    MirrorInner (torqueInner T ops cl) (fun x x' => rel x.1 x'.1 ∧ CurrentTwin T S rs τ x.2 x'.2) S (fun _ => tq) τ where
  reset c c' h := ⟨ho.reset _ _ h.1, (currentInner_mirror (T := T)).reset _ _ h.2⟩
  control c c' s s' r h hs := by
    obtain ⟨o1, o2⟩ := ho.select c.1 c'.1 s s' (r 0) h.1 hs
    simp only [torqueInner, torqueControl]
    cases e : (ops.select c.1 s (r 0)).2 with
    | error a =>
      rw [e] at o2
      cases e' : (ops.select c'.1 s' (tq * r 0)).2 with
      | error b =>
        rw [e'] at o2
        exact ⟨⟨o1, h.2⟩, o2⟩
      | ok b =>
        rw [e'] at o2
        exact o2.elim
    | ok i =>
      rw [e] at o2
      cases e' : (ops.select c'.1 s' (tq * r 0)).2 with
      | error b =>
        rw [e'] at o2
        exact o2.elim
      | ok i' =>
        rw [e'] at o2
        change i' = _ at o2
        subst o2
        obtain ⟨c1, c2⟩ := current_mirror h.2 hs (cl.call i)
        simp only [hc i]
        exact ⟨⟨o1, c1⟩, c2⟩

/-- The parts of a speed controller fit the sign `w` of the speed. -/
structure SpeedFits (S : (Fin m → ℝ) → (Fin m → ℝ) → Prop) (w : ℝ) (c : Speed m ℝ) : Prop where
  sign : Sign w
  idx : ∀ s s' i, S s s' → s' (c.base.idx i) = w * s (c.base.idx i)
  idx' : ∀ s s' i, S s s' → s' (c.idx i) = w * s (c.idx i)
  clip : OddClip (fun _ => w) c.clipping

/-- speed controllers in pairs -/
structure SpeedTwin (S : (Fin m → ℝ) → (Fin m → ℝ) → Prop) (w : ℝ) (c c' : Speed m ℝ) : Prop where
  fits : SpeedFits S w c
  base : BaseTwin (fun _ => w) c.base c'.base
  clip : c'.clipping = c.clipping
  tau : c'.tau = c.tau
  idx : c'.idx = c.idx

theorem control_idx (b : Base n m ℝ) (s : Fin m → ℝ) (r d : Fin n → ℝ) : (((b.control s r).1.integrate d).1).idx = b.idx := by
  have e1 : (b.control s r).1.idx = b.idx := by
    unfold Base.control
    cases b.kind <;> rfl
  unfold Base.integrate
  rw [← e1]
  split
  · split
    · rfl
    · split <;> rfl
  · rfl

theorem speed_mirror {S : (Fin m → ℝ) → (Fin m → ℝ) → Prop} {w : ℝ} {c c' : Speed m ℝ} (h : SpeedTwin S w c c') {s s' : Fin m → ℝ}
    (hs : S s s') (r : Fin 1 → ℝ) : SpeedTwin S w (c.control s r).1 (c'.control s' fun i => w * r i).1 ∧
    Echo (fun u u' => u' = fun i => w * u i) (c.control s r).2 (c'.control s' fun i => w * r i).2 := by
  obtain ⟨b1, b2⟩ := base_control_mirror h.base (fun i => h.fits.idx s s' i hs) r
  obtain ⟨i1, i2⟩ := base_integrate_mirror b1 (antiWindup c.tau c.idx s r (c.clipping.difference (c.base.control s r).2))
  have hw : antiWindup c'.tau c'.idx s' (fun i => w * r i) (c'.clipping.difference (c'.base.control s' fun i => w * r i).2) =
      fun i => w * antiWindup c.tau c.idx s r (c.clipping.difference (c.base.control s r).2) i := by
    rw [h.tau, h.idx, h.clip, b2, difference_odd h.fits.clip]
    exact windup_odd (fun _ => h.fits.sign) _ (fun i => h.fits.idx' s s' i hs) _ _
  unfold Speed.control
  simp only [hw, i2]
  refine ⟨⟨⟨h.fits.sign, ?_, h.fits.idx', h.fits.clip⟩, i1, h.clip, h.tau, h.idx⟩, ?_⟩
  · simp only [control_idx]
    exact h.fits.idx
  · cases ((c.base.control s r).1.integrate (antiWindup c.tau c.idx s r (c.clipping.difference (c.base.control s r).2))).2 with
    | error e => rfl
    | ok _ =>
      simp only [Except.map, Echo, h.clip, b2]
      exact h.fits.clip _

theorem speedInner_mirror {κ : Type} {j : ℕ} {I : Inner κ m 1 j} {rel : κ → κ → Prop} {S : (Fin m → ℝ) → (Fin m → ℝ) → Prop} {w : ℝ}
    {τ : (Fin j → ℝ) → Fin j → ℝ} (h : MirrorInner I rel S (fun _ => w) τ) :
    MirrorInner (speedInner I) (fun x x' => SpeedTwin S w x.1 x'.1 ∧ rel x.2 x'.2) S (fun _ => w) τ where
  reset c c' hc := by
    refine ⟨⟨⟨hc.1.fits.sign, ?_, hc.1.fits.idx', hc.1.fits.clip⟩, base_reset_mirror hc.1.base, hc.1.clip, hc.1.tau, hc.1.idx⟩, h.reset _ _ hc.2⟩
    have e : c.1.base.reset.idx = c.1.base.idx := by
      unfold Base.reset
      split <;> rfl
    simp only [speedInner, Speed.reset, e]
    exact hc.1.fits.idx
  control c c' s s' r hc hs := by
    obtain ⟨t1, t2⟩ := speed_mirror hc.1 hs r
    simp only [speedInner]
    cases e : (c.1.control s r).2 with
    | error a =>
      rw [e] at t2
      cases e' : (c'.1.control s' fun i => w * r i).2 with
      | error b =>
        rw [e'] at t2
        exact ⟨⟨t1, hc.2⟩, t2⟩
      | ok b =>
        rw [e'] at t2
        exact t2.elim
    | ok x =>
      rw [e] at t2
      cases e' : (c'.1.control s' fun i => w * r i).2 with
      | error b =>
        rw [e'] at t2
        exact t2.elim
      | ok x' =>
        rw [e'] at t2
        change x' = _ at t2
        subst t2
        obtain ⟨c1, c2⟩ := h.control c.2 c'.2 s s' x hc.2 hs
        exact ⟨⟨t1, c1⟩, c2⟩

theorem new_speed {S : (Fin m → ℝ) → (Fin m → ℝ) → Prop} {w : ℝ} {c : Speed m ℝ} (h : SpeedFits S w c) (hn : NewBase c.base) :
    SpeedTwin S w c c := ⟨h, new_base hn _, rfl, rfl, rfl⟩

end stages

/-! ## Drives with their controllers -/

section drives

variable {κ Y U A S C P : Type}

/-- The observations that a controller and a physical system exchange, for a sequence of references (gem_controller.py 159–171 without the
end of episodes); an exception ends the sequence. -/
def loopCourse (p : Parts ℝ Y U A S C P) (f : Frame ℝ Y U A) (tau : ℝ) (limits : List ℝ) (q : Controller κ (List ℝ × List ℝ) A) :
    St ℝ S C P → κ → List ℝ → List (List ℝ) → List (Except Err (List ℝ))
  | _, _, _, [] => []
  | st, c, o, r :: rs =>
    match (q.control c (o, r)).2 with
    | .error e => [.error e]
    | .ok a =>
      match (simulate p f tau limits st a).2 with
      | .error e => [.error e]
      | .ok o' => .ok o' :: loopCourse p f tau limits q (simulate p f tau limits st a).1 (q.control c (o, r)).1 o' rs

/-- The same from the reset of both to the first step. -/
def loopRun (p : Parts ℝ Y U A S C P) (f : Frame ℝ Y U A) (rep : Y → List ℝ → List ℝ → Except Err (List ℝ)) (tau : ℝ) (limits : List ℝ)
    (q : Controller κ (List ℝ × List ℝ) A) (st : St ℝ S C P) (c : κ) (y : Y) (rs : List (List ℝ)) : List (Except Err (List ℝ)) :=
  match (reset p rep limits st y).2 with
  | .error e => [.error e]
  | .ok o => .ok o :: loopCourse p f tau limits q (reset p rep limits st y).1 (q.reset c) o rs

/-- references in both directions -/
def SignedRefs {k : ℕ} (rs : Fin k → ℝ) (r r' : List ℝ) : Prop := ∃ v : Fin k → ℝ, r = List.ofFn v ∧ r' = List.ofFn fun i => rs i * v i

/-- Drives with their controller in both directions: from images of the initial state, with images of the references, the observations are
images, whatever the sequence of references. -/
def SameLoop {m : ℕ} (pw : Power A C) (src : Source P) (load load' : AnyLoad) (torque : (Fin m → ℝ) → ℝ)
    (ode : (Fin m → ℝ) → U → ℝ → Fin m → ℝ) (toY : (Fin (1 + m) → ℝ) → Y) (ofY : Y → Fin (1 + m) → ℝ) (f : Frame ℝ Y U A)
    (rep : Y → List ℝ → List ℝ → Except Err (List ℝ)) (limits : List ℝ) (conv : C) (move : (Fin (1 + m) → ℝ) → Fin (1 + m) → ℝ)
    (obs : List ℝ → List ℝ → Prop) (refs : List ℝ → List ℝ → Prop) (q : Controller κ (List ℝ × List ℝ) A) (c : κ) : Prop :=
  ∀ (tau : ℝ) (scratch scratch' : Option (Fin (1 + m) → ℝ)) (st st' : St ℝ (Euler ℝ (Fin (1 + m) → ℝ)) C P) (x : Fin (1 + m) → ℝ)
    (rs rs' : List (List ℝ)), st.conv = conv → st'.conv = conv → st'.supply = st.supply → st'.solver.nsteps = st.solver.nsteps →
    List.Forall₂ refs rs rs' →
    List.Forall₂ (Echo obs) (loopRun (eulerParts pw src load torque ode scratch toY ofY) f rep tau limits q st c (toY x) rs)
      (loopRun (eulerParts pw src load' torque ode scratch' toY ofY) f rep tau limits q st' c (toY (move x)) rs')

/-- Controllers that answer images with images. -/
structure MirrorCtl (q : Controller κ (List ℝ × List ℝ) A) (rel : κ → κ → Prop) (obs refs : List ℝ → List ℝ → Prop) (asked : A → A → Prop) :
    Prop where
  reset : ∀ c c', rel c c' → rel (q.reset c) (q.reset c')
  control : ∀ c c' o o' r r', rel c c' → obs o o' → refs r r' → rel (q.control c (o, r)).1 (q.control c' (o', r')).1 ∧
    Echo asked (q.control c (o, r)).2 (q.control c' (o', r')).2

/-- the state after a history -/
def stateAfter (p : Parts ℝ Y U A S C P) (f : Frame ℝ Y U A) (rep : Y → List ℝ → List ℝ → Except Err (List ℝ)) (tau : ℝ) (limits : List ℝ) :
    St ℝ S C P → List (Y ⊕ A) → St ℝ S C P
  | st, [] => st
  | st, .inl y :: ops => stateAfter p f rep tau limits (reset p rep limits st y).1 ops
  | st, .inr a :: ops => stateAfter p f rep tau limits (simulate p f tau limits st a).1 ops

theorem answers_append (p : Parts ℝ Y U A S C P) (f : Frame ℝ Y U A) (rep : Y → List ℝ → List ℝ → Except Err (List ℝ)) (tau : ℝ)
    (limits : List ℝ) (st : St ℝ S C P) (l k : List (Y ⊕ A)) :
    answers p f rep tau limits st (l ++ k) = answers p f rep tau limits st l ++ answers p f rep tau limits (stateAfter p f rep tau limits st l) k := by
  induction l generalizing st with
  | nil => rfl
  | cons o l ih => cases o <;> simp only [List.cons_append, answers, stateAfter, ih]

theorem stateAfter_append (p : Parts ℝ Y U A S C P) (f : Frame ℝ Y U A) (rep : Y → List ℝ → List ℝ → Except Err (List ℝ)) (tau : ℝ)
    (limits : List ℝ) (st : St ℝ S C P) (l k : List (Y ⊕ A)) :
    stateAfter p f rep tau limits st (l ++ k) = stateAfter p f rep tau limits (stateAfter p f rep tau limits st l) k := by
  induction l generalizing st with
  | nil => rfl
  | cons o l ih => cases o <;> simp only [List.cons_append, stateAfter, ih]

theorem answers_length (p : Parts ℝ Y U A S C P) (f : Frame ℝ Y U A) (rep : Y → List ℝ → List ℝ → Except Err (List ℝ)) (tau : ℝ)
    (limits : List ℝ) (st : St ℝ S C P) (l : List (Y ⊕ A)) : (answers p f rep tau limits st l).length = l.length := by
  induction l generalizing st with
  | nil => rfl
  | cons o l ih => cases o <;> simp [answers, ih]

/-- Systems with the same course and controllers of which one is the image of the other. -/
theorem sameLoop_of {m : ℕ} {pw : Power A C} {src : Source P} {load load' : AnyLoad} {torque : (Fin m → ℝ) → ℝ}
    {ode : (Fin m → ℝ) → U → ℝ → Fin m → ℝ} {toY : (Fin (1 + m) → ℝ) → Y} {ofY : Y → Fin (1 + m) → ℝ} {f : Frame ℝ Y U A}
    {rep : Y → List ℝ → List ℝ → Except Err (List ℝ)} {limits : List ℝ} {conv : C} {move : (Fin (1 + m) → ℝ) → Fin (1 + m) → ℝ}
    {asked : A → A → Prop} {obs refs : List ℝ → List ℝ → Prop} {q : Controller κ (List ℝ × List ℝ) A} {c : κ} {rel : κ → κ → Prop}
    (h : SameCourse pw src load load' torque ode toY ofY f rep limits conv move asked obs) (hq : MirrorCtl q rel obs refs asked) (h0 : rel c c) :
    SameLoop pw src load load' torque ode toY ofY f rep limits conv move obs refs q c := by
  intro tau scratch scratch' st st' x rs rs' h1 h2 h3 h4 hr
  obtain ⟨p, hp⟩ : ∃ p, p = eulerParts pw src load torque ode scratch toY ofY := ⟨_, rfl⟩
  obtain ⟨p', hp'⟩ : ∃ p, p = eulerParts pw src load' torque ode scratch' toY ofY := ⟨_, rfl⟩
  have hist : ∀ ops ops', List.Forall₂ (Paired toY move asked) ops ops' →
      List.Forall₂ (Echo obs) (answers p f rep tau limits st (.inl (toY x) :: ops)) (answers p' f rep tau limits st' (.inl (toY (move x)) :: ops')) := by
    rw [hp, hp']
    exact fun ops ops' ho => h tau scratch scratch' st st' x ops ops' h1 h2 h3 h4 ho
  have steps : ∀ rs rs', List.Forall₂ refs rs rs' → ∀ ops ops' k k' o o', List.Forall₂ (Paired toY move asked) ops ops' → rel k k' → obs o o' →
      List.Forall₂ (Echo obs) (loopCourse p f tau limits q (stateAfter p f rep tau limits st (.inl (toY x) :: ops)) k o rs)
        (loopCourse p' f tau limits q (stateAfter p' f rep tau limits st' (.inl (toY (move x)) :: ops')) k' o' rs') := by
    intro rs rs' hr
    induction hr with
    | nil => exact fun _ _ _ _ _ _ _ _ _ => .nil
    | @cons r r' _ _ hr0 _ ih =>
      intro ops ops' k k' o o' ho hk hoo
      obtain ⟨c1, c2⟩ := hq.control k k' o o' _ _ hk hoo hr0
      simp only [loopCourse]
      revert c2
      match (q.control k (o, r)).2, (q.control k' (o', r')).2 with
      | .error e, .error e' => exact fun c2 => .cons c2 .nil
      | .error e, .ok _ => exact fun c2 => c2.elim
      | .ok _, .error e => exact fun c2 => c2.elim
      | .ok a, .ok a' =>
        intro c2
        change asked a a' at c2
        have hl : ops.length = ops'.length := ho.length_eq
        have key := hist (ops ++ [.inr a]) (ops' ++ [.inr a']) (List.rel_append ho (.cons (.step c2) .nil))
        rw [← List.cons_append, ← List.cons_append, answers_append, answers_append] at key
        have := List.forall₂_drop (ops.length + 1) key
        rw [List.drop_left' (by rw [answers_length]; rfl), List.drop_left' (by rw [answers_length, hl]; rfl)] at this
        simp only [answers, List.forall₂_cons, List.Forall₂.nil, and_true] at this
        have step := ih (ops ++ [.inr a]) (ops' ++ [.inr a']) (q.control k (o, r)).1 (q.control k' (o', r')).1
        simp only [← List.cons_append, stateAfter_append] at step
        simp only [stateAfter] at step this ⊢
        revert this step
        match (simulate p f tau limits (stateAfter p f rep tau limits (reset p rep limits st (toY x)).1 ops) a).2,
          (simulate p' f tau limits (stateAfter p' f rep tau limits (reset p' rep limits st' (toY (move x))).1 ops') a').2 with
        | .error e, .error e' => exact fun t _ => .cons t .nil
        | .error e, .ok _ => exact fun t _ => t.elim
        | .ok _, .error e => exact fun t _ => t.elim
        | .ok u, .ok u' => exact fun t step => .cons t (step u u' (List.rel_append ho (.cons (.step c2) .nil)) c1 t)
  have start := hist [] [] .nil
  rw [← hp, ← hp']
  simp only [answers, List.forall₂_cons, List.Forall₂.nil, and_true] at start
  have first := fun o o' => steps rs rs' hr [] [] (q.reset c) (q.reset c) o o' .nil (hq.reset c c h0)
  simp only [stateAfter] at first
  unfold loopRun
  revert start
  match (reset p rep limits st (toY x)).2, (reset p' rep limits st' (toY (move x))).2 with
  | .error e, .error e' => exact fun s => .cons s .nil
  | .error e, .ok _ => exact fun s => s.elim
  | .ok _, .error e => exact fun s => s.elim
  | .ok o, .ok o' => exact fun s => .cons s (first o o' s)

/-- the adapter between the observations and the controller -/
theorem adapter_mirror {m k j : ℕ} {I : Inner κ m k j} {rel : κ → κ → Prop} {St : (Fin m → ℝ) → (Fin m → ℝ) → Prop} {rs : Fin k → ℝ}
    {τ : (Fin j → ℝ) → Fin j → ℝ} (h : MirrorInner I rel St rs τ) {limits : Fin m → ℝ} {refLimits : Fin k → ℝ} {out : (Fin j → ℝ) → Except Err A}
    {obs : List ℝ → List ℝ → Prop} {asked : A → A → Prop}
    (hobs : ∀ o o', obs o o' → o.length = m ∧ o'.length = m ∧ St (fun i => vec m o i * limits i) fun i => vec m o' i * limits i)
    (hout : ∀ u, Echo asked (out u) (out (τ u))) : MirrorCtl (adapter limits refLimits I out) rel obs (SignedRefs rs) asked where
  reset := h.reset
  control := by
    rintro c c' o o' r r' hc ho ⟨v, rfl, rfl⟩
    obtain ⟨l1, l2, hs⟩ := hobs o o' ho
    have hv : ∀ v : Fin k → ℝ, vec k (List.ofFn v) = v := by
      intro v
      funext i
      simp [vec]
    have key := h.control c c' _ _ (fun i => v i * refLimits i) hc hs
    have er : (fun i => rs i * (v i * refLimits i)) = fun i => rs i * v i * refLimits i := by
      funext i
      ring
    rw [er] at key
    obtain ⟨k1, k2⟩ := key
    simp only [adapter, l1, l2, List.length_ofFn, and_self, if_true, inputStage, hv]
    refine ⟨k1, ?_⟩
    revert k2
    match (I.control c (fun i => vec m o i * limits i) fun i => v i * refLimits i).2,
      (I.control c' (fun i => vec m o' i * limits i) fun i => rs i * v i * refLimits i).2 with
    | .error e, .error e' => exact fun k2 => k2
    | .error e, .ok _ => exact fun k2 => k2.elim
    | .ok _, .error e => exact fun k2 => k2.elim
    | .ok u, .ok u' =>
      intro k2
      change u' = τ u at k2
      rw [k2]
      exact hout u

end drives

/-! ## Direct current motors -/

section dc

variable {m n : ℕ}

/-- states with signs -/
def Signed (σ : Fin m → ℝ) (s s' : Fin m → ℝ) : Prop := ∀ i, s' i = σ i * s i

theorem emf_signed {σ : Fin m → ℝ} {rs : Fin n → ℝ} {p : ℝ} {ind psi : Fin n → ℝ} {cur : Fin n → Fin m} {om : Fin m}
    (h : ∀ i, (ind i = 0 ∨ σ (cur i) * σ om = rs i) ∧ (psi i = 0 ∨ σ om = rs i)) {s s' : Fin m → ℝ} (hs : Signed σ s s') (u : Fin n → ℝ) :
    emf p ind psi cur om s' (fun i => rs i * u i) = fun i => rs i * emf p ind psi cur om s u i := by
  funext i
  obtain ⟨h1, h2⟩ := h i
  simp only [emf, hs (cur i), hs om]
  have e1 : ind i * (σ (cur i) * s (cur i)) * (σ om * s om * p) = rs i * (ind i * s (cur i) * (s om * p)) := by
    rcases h1 with e | e
    · rw [e]
      ring
    · rw [← e]
      ring
  have e2 : psi i * (σ om * s om * p) = rs i * (psi i * (s om * p)) := by
    rcases h2 with e | e
    · rw [e]
      ring
    · rw [← e]
      ring
  rw [add_mul, e1, e2]
  ring

/-- Current controllers of DC motors: the controlled currents have the signs `rs`, the ranges of reversed voltages are symmetric, and the
feedforward fits the signs. -/
structure DcParts (σ : Fin m → ℝ) (rs : Fin n → ℝ) (c : Current n m ℝ) : Prop where
  sign : ∀ i, Sign (rs i)
  idx : ∀ i, σ (c.base.idx i) = rs i
  idx' : ∀ i, σ (c.idx i) = rs i
  ff : c.ff = none ∨ ∃ p ind psi cur om, c.ff = some (emf p ind psi cur om) ∧
    ∀ i, (ind i = 0 ∨ σ (cur i) * σ om = rs i) ∧ (psi i = 0 ∨ σ om = rs i)
  clip : ∃ lo hi, c.clipping = .absolute lo hi ∧ EvenRange rs lo hi

theorem DcParts.fits {σ : Fin m → ℝ} {rs : Fin n → ℝ} {c : Current n m ℝ} (h : DcParts σ rs c) :
    CurrentFits (fun _ u => u) (Signed σ) rs (fun u i => rs i * u i) c where
  sign := h.sign
  idx s s' i hs := by rw [hs, h.idx]
  idx' s s' i hs := by rw [hs, h.idx']
  ff f hf s s' u hs := by
    rcases h.ff with e | ⟨p, ind, psi, cur, om, e, he⟩
    · rw [e] at hf
      cases hf
    · rw [e] at hf
      cases hf
      exact emf_signed he hs u
  clip := by
    obtain ⟨lo, hi, e, he⟩ := h.clip
    rw [e]
    exact odd_absolute he
  out _ _ _ _ := rfl

/-- a symmetric range -/
def EvenClip (cl : Clip 1 ℝ) : Prop := ∃ h : ℝ, 0 ≤ h ∧ cl = .absolute (fun _ => -h) fun _ => h

theorem EvenClip.odd {cl : Clip 1 ℝ} (h : EvenClip cl) : OddClip (fun _ => -1) cl := by
  obtain ⟨x, h0, rfl⟩ := h
  exact odd_absolute fun _ => .inr ⟨rfl, rfl, h0⟩

/-- A speed controller of a system whose first state is the speed, with a symmetric range of torques. -/
structure SpeedParts (c : Speed m ℝ) (om : Fin m) : Prop where
  idx : c.base.idx 0 = om
  idx' : c.idx 0 = om
  clip : EvenClip c.clipping
  new : NewBase c.base

theorem SpeedParts.fits {σ : Fin m → ℝ} {om : Fin m} {c : Speed m ℝ} (h : SpeedParts c om) (ho : σ om = -1) : SpeedFits (Signed σ) (-1) c where
  sign := .inr rfl
  idx s s' i hs := by rw [Fin.eq_zero i, h.idx, hs, ho]
  idx' s s' i hs := by rw [Fin.eq_zero i, h.idx', hs, ho]
  clip := h.clip.odd

/-- The controllers of permanently excited DC motors (states: speed, torque, current, voltage, supply). -/
inductive PermExControl : {κ : Type} → {k : ℕ} → Inner κ 5 k 1 → κ → Prop
  | current {c : Current 1 5 ℝ} (h : DcParts ![-1, -1, -1, -1, 1] (fun _ => -1) c) (hn : NewBase c.base) :
    PermExControl (currentInner fun _ u => u) c
  | torque {c : Current 1 5 ℝ} (h : DcParts ![-1, -1, -1, -1, 1] (fun _ => -1) c) (hn : NewBase c.base) (psi : ℝ) {cl : Clip 1 ℝ}
    (hcl : EvenClip cl) : PermExControl (torqueInner (fun _ u => u) (permExOps psi) cl) ((), c)
  | speed {c : Current 1 5 ℝ} (h : DcParts ![-1, -1, -1, -1, 1] (fun _ => -1) c) (hn : NewBase c.base) (psi : ℝ) {cl : Clip 1 ℝ}
    (hcl : EvenClip cl) {sp : Speed 5 ℝ} (hs : SpeedParts sp 0) :
    PermExControl (speedInner (torqueInner (fun _ u => u) (permExOps psi) cl)) (sp, ((), c))

theorem permExOps_mirror (psi : ℝ) (S : (Fin m → ℝ) → (Fin m → ℝ) → Prop) :
    MirrorOps (permExOps (m := m) psi) (fun _ _ => True) S (-1) fun _ => -1 := by
  refine ⟨fun _ _ _ => trivial, fun _ _ _ _ t _ _ => ⟨trivial, ?_⟩⟩
  simp only [permExOps, Echo, Ops.permEx]
  funext k
  ring

theorem permEx_mirror {κ : Type} {k : ℕ} {I : Inner κ 5 k 1} {st : κ} (h : PermExControl I st) :
    ∃ rel, MirrorInner I rel (Signed ![-1, -1, -1, -1, 1]) (fun _ => -1) (fun u i => -1 * u i) ∧ rel st st := by
  cases h with
  | current h hn => exact ⟨_, currentInner_mirror, new_current h.fits hn⟩
  | torque h hn psi hcl => exact ⟨_, torqueInner_mirror (permExOps_mirror psi _) hcl.odd, trivial, new_current h.fits hn⟩
  | speed h hn psi hcl hs =>
    exact ⟨_, speedInner_mirror (torqueInner_mirror (permExOps_mirror psi _) hcl.odd), new_speed (hs.fits rfl) hs.new, trivial,
      new_current h.fits hn⟩

/-- the observation of one circuit, in physical units -/
theorem one_signed {names : List String} {limits : List ℝ} (s a : ℝ) (hn : names = ["omega", "torque", "i", "u", "u_sup"]) {o o' : List ℝ}
    (h : Image names names limits id (dcSign s a 1) 0 o o') : o.length = 5 ∧ o'.length = 5 ∧
    Signed ![s, s, a, a, 1] (fun i => vec 5 o i * vec 5 limits i) fun i => vec 5 o' i * vec 5 limits i := by
  subst hn
  obtain ⟨l1, l2⟩ := h.length
  refine ⟨l1, l2, ?_⟩
  match o, o', l1, l2 with
  | [a0, a1, a2, a3, a4], [b0, b1, b2, b3, b4], _, _ =>
    have key := fun n hn he => h.entry n hn he
    have k0 := key "omega" (by simp) (by simp)
    have k1 := key "torque" (by simp) (by simp)
    have k2 := key "i" (by simp) (by simp)
    have k3 := key "u" (by simp) (by simp)
    have k4 := key "u_sup" (by simp) (by simp)
    simp [readState, dcSign] at k0 k1 k2 k3 k4
    intro i
    fin_cases i
    · simp [vec, k0]; ring
    · simp [vec, k1]; ring
    · simp [vec, k2]; ring
    · simp [vec, k3]; ring
    · simp [vec, k4]

theorem contOut_one (U : ℝ) (u : Fin 1 → ℝ) :
    Echo (fun a a' : List ℝ => ∃ x, a = [x] ∧ a' = [-x]) (contOut (fun _ => U) u) (contOut (fun _ => U) fun i => -1 * u i) := by
  refine ⟨u 0 / U, ?_, ?_⟩
  · simp [contOutput]
  · simp [contOutput, neg_div]

theorem selectAction_four {U : ℝ} (hU : 0 < U) (u : ℝ) :
    SwitchesOpposite (selectAction (getActions 4) (-U) U u) (selectAction (getActions 4) (-U) U (-u)) := by
  have hl : 0 < level (-U) U := by
    unfold level
    linarith
  unfold selectAction SwitchesOpposite
  simp only [getActions]
  by_cases h1 : u ≤ -level (-U) U
  · have h2 : ¬ -u ≤ -level (-U) U := by linarith
    have h3 : level (-U) U ≤ -u := by linarith
    simp [h1, h2, h3]
  · by_cases h3 : level (-U) U ≤ u
    · have h4 : -u ≤ -level (-U) U := by linarith
      simp [h1, h3, h4]
    · have h4 : ¬ -u ≤ -level (-U) U := by linarith
      have h5 : ¬ level (-U) U ≤ -u := by linarith
      simp [h1, h3, h4, h5]

theorem discOne_four {U : ℝ} (hU : 0 < U) (u : Fin 1 → ℝ) :
    Echo SwitchesOpposite (discOne (.discrete 4) (fun _ => (-U, U)) u) (discOne (.discrete 4) (fun _ => (-U, U)) fun i => -1 * u i) := by
  have key := selectAction_four hU (u 0)
  simpa [discOne, discOutput, selectAll, Echo] using key

/-- The drive of one circuit with a controller behind the adapter, averaged and switched. -/
def OneLoops {κ : Type} {k : ℕ} (s : ℝ) (other : AnyLoad → AnyLoad) (torque : (Fin 1 → ℝ) → ℝ)
    (ode : (Fin 1 → ℝ) → (Fin 1 → ℝ) → ℝ → Fin 1 → ℝ) (I : Inner κ 5 k 1) (c : κ) (rs : Fin k → ℝ) : Prop :=
  ∀ {P : Type} (src : Source P) (load : AnyLoad) (limits : List ℝ) (T i U : ℝ) (refLimits : Fin k → ℝ), OneVoltage src → limits.length = 5 →
    0 < U →
    SameLoop finitePower src load (other load) torque (fun x (u : List ℝ) w => ode x (fun i => u.getD i 0) w) dcY ofDcY
      (dcFrame id (dcTq torque) [0] 1 1) (dcResetReport (dcTq torque) [0]) limits (.four (FourQC.new T i)) (oppositeOne s)
      (Image dcOneStates dcOneStates limits id (dcSign s (-1) 1) 0) (SignedRefs rs)
      (adapter (vec 5 limits) refLimits I (discOne (.discrete 4) fun _ => (-U, U))) c ∧
    SameLoop contPower src load (other load) torque (fun x (u : List ℝ) w => ode x (fun i => u.getD i 0) w) dcY ofDcY
      (dcFrame id (dcTq torque) [0] 1 1) (dcResetReport (dcTq torque) [0]) limits (.four (CFour.new T i)) (oppositeOne s)
      (Image dcOneStates dcOneStates limits id (dcSign s (-1) 1) 0) (SignedRefs rs)
      (adapter (vec 5 limits) refLimits I (contOut fun _ => U)) c

theorem one_loops {κ : Type} {k : ℕ} {s : ℝ} {other : AnyLoad → AnyLoad} {torque : (Fin 1 → ℝ) → ℝ}
    {ode : (Fin 1 → ℝ) → (Fin 1 → ℝ) → ℝ → Fin 1 → ℝ} {I : Inner κ 5 k 1} {c : κ} {rs : Fin k → ℝ} {rel : κ → κ → Prop}
    (h : OneReverses s other torque ode) (hI : MirrorInner I rel (Signed ![s, s, -1, -1, 1]) rs fun u i => -1 * u i) (h0 : rel c c) :
    OneLoops s other torque ode I c rs := by
  intro P src load limits T i U refLimits h1 hl hU
  obtain ⟨f1, f2⟩ := h src load limits T i h1 hl
  exact ⟨sameLoop_of f1 (adapter_mirror hI (fun o o' ho => one_signed s (-1) rfl ho) (discOne_four hU)) h0,
    sameLoop_of f2 (adapter_mirror hI (fun o o' ho => one_signed s (-1) rfl ho) (contOut_one U)) h0⟩

/-- C137 for permanently excited DC motors: current, torque and speed control. -/
theorem c137_permEx {κ : Type} {k : ℕ} {I : Inner κ 5 k 1} {st : κ} (h : PermExControl I st) :
    Opposed I st (Signed ![-1, -1, -1, -1, 1]) (fun _ => -1) (fun u i => -1 * u i) ∧
    ∀ pe : PermExParams ℝ, OneLoops (-1) AnyLoad.opposite (permExTorque pe) (permExOde pe) I st fun _ => -1 := by
  obtain ⟨rel, hI, h0⟩ := permEx_mirror h
  exact ⟨hI.opposed h0, fun pe => one_loops (c136_one pe ⟨1, 1, 1, 1, 1⟩).1 hI h0⟩

/-- C137 for series motors: current control; current and voltage reversed, speed and torque as before. -/
theorem c137_series {c : Current 1 5 ℝ} (h : DcParts ![1, 1, -1, -1, 1] (fun _ => -1) c) (hn : NewBase c.base) :
    Opposed (currentInner fun _ u => u) c (Signed ![1, 1, -1, -1, 1]) (fun _ => -1) (fun u i => -1 * u i) ∧
    ∀ mp : DcParams ℝ, OneLoops 1 id (seriesTorque mp) (seriesOde mp) (currentInner fun _ u => u) c fun _ => -1 := by
  have h0 := new_current h.fits hn
  exact ⟨(currentInner_mirror (T := fun _ u => u)).opposed h0, fun mp => one_loops (c136_one ⟨1, 1, 1⟩ mp).2 currentInner_mirror h0⟩

/-- the observation of a shunt motor, in physical units -/
theorem shunt_signed {limits : List ℝ} {o o' : List ℝ} (h : Image shuntStates shuntStates limits id (dcSign 1 (-1) (-1)) 0 o o') :
    o.length = 6 ∧ o'.length = 6 ∧
    Signed ![1, 1, -1, -1, -1, 1] (fun i => vec 6 o i * vec 6 limits i) fun i => vec 6 o' i * vec 6 limits i := by
  have he : shuntStates = ["omega", "torque", "i_a", "i_e", "u", "u_sup"] := rfl
  rw [he] at h
  obtain ⟨l1, l2⟩ := h.length
  refine ⟨l1, l2, ?_⟩
  match o, o', l1, l2 with
  | [a0, a1, a2, a3, a4, a5], [b0, b1, b2, b3, b4, b5], _, _ =>
    have key := fun n hn he => h.entry n hn he
    have k0 := key "omega" (by simp) (by simp)
    have k1 := key "torque" (by simp) (by simp)
    have k2 := key "i_a" (by simp) (by simp)
    have k3 := key "i_e" (by simp) (by simp)
    have k4 := key "u" (by simp) (by simp)
    have k5 := key "u_sup" (by simp) (by simp)
    simp [readState, dcSign] at k0 k1 k2 k3 k4 k5
    intro i
    fin_cases i
    · simp [vec, k0]
    · simp [vec, k1]
    · simp [vec, k2]
    · simp [vec, k3]
    · simp [vec, k4]
    · simp [vec, k5]

/-- C137 for shunt motors: current control; currents and voltage reversed, speed and torque as before. -/
theorem c137_shunt {c : Current 1 6 ℝ} (h : DcParts ![1, 1, -1, -1, -1, 1] (fun _ => -1) c) (hn : NewBase c.base) :
    Opposed (currentInner fun _ u => u) c (Signed ![1, 1, -1, -1, -1, 1]) (fun _ => -1) (fun u i => -1 * u i) ∧
    ∀ (mp : DcParams ℝ) {P : Type} (src : Source P) (load : AnyLoad) (limits : List ℝ) (T i U : ℝ) (refLimits : Fin 1 → ℝ), OneVoltage src →
      limits.length = 6 → 0 < U →
      SameLoop finitePower src load load (dcTorque mp) (fun x (u : List ℝ) w => shuntOde mp x (fun i => u.getD i 0) w) dcY ofDcY
        (dcFrame (fun l => [l.getD 0 0 + l.getD 1 0]) (dcTq (dcTorque mp)) [0, 1] 1 1) (dcResetReport (dcTq (dcTorque mp)) [0, 1]) limits
        (.four (FourQC.new T i)) (signsTwo (-1) (-1)) (Image shuntStates shuntStates limits id (dcSign 1 (-1) (-1)) 0) (SignedRefs (k := 1) fun _ => -1)
        (adapter (vec 6 limits) refLimits (currentInner fun _ u => u) (discOne (.discrete 4) fun _ => (-U, U))) c ∧
      SameLoop contPower src load load (dcTorque mp) (fun x (u : List ℝ) w => shuntOde mp x (fun i => u.getD i 0) w) dcY ofDcY
        (dcFrame (fun l => [l.getD 0 0 + l.getD 1 0]) (dcTq (dcTorque mp)) [0, 1] 1 1) (dcResetReport (dcTq (dcTorque mp)) [0, 1]) limits
        (.four (CFour.new T i)) (signsTwo (-1) (-1)) (Image shuntStates shuntStates limits id (dcSign 1 (-1) (-1)) 0) (SignedRefs (k := 1) fun _ => -1)
        (adapter (vec 6 limits) refLimits (currentInner fun _ u => u) (contOut fun _ => U)) c := by
  have h0 := new_current h.fits hn
  refine ⟨(currentInner_mirror (T := fun _ u => u)).opposed h0, ?_⟩
  intro mp P src load limits T i U refLimits h1 hl hU
  obtain ⟨f1, f2⟩ := c136_shunt mp src load limits T i h1 hl
  exact ⟨sameLoop_of f1 (adapter_mirror currentInner_mirror (fun o o' ho => shunt_signed ho) (discOne_four hU)) h0,
    sameLoop_of f2 (adapter_mirror currentInner_mirror (fun o o' ho => shunt_signed ho) (contOut_one U)) h0⟩

/-- the signs of the states of externally excited motors -/
def extExSigns (a e : ℝ) : Fin 7 → ℝ := ![a * e, a * e, a, e, a, e, 1]

/-- The controllers of externally excited motors, and the signs of their references: with current control armature and excitation can be
reversed, with torque and speed control the armature. -/
inductive ExtExControl (a e : ℝ) : {κ : Type} → {k : ℕ} → Inner κ 7 k 2 → κ → (Fin k → ℝ) → Prop
  | current {c : Current 2 7 ℝ} (h : DcParts (extExSigns a e) ![a, e] c) (hn : NewBase c.base) :
    ExtExControl a e (currentInner fun _ u => u) c ![a, e]
  | torque {c : Current 2 7 ℝ} (ha : a = -1) (he : e = 1) (h : DcParts (extExSigns a e) ![a, e] c) (hn : NewBase c.base) (mp : DcParams ℝ)
    {lo hi : Fin 2 → ℝ} (hcl : EvenRange ![a, e] lo hi) :
    ExtExControl a e (torqueInner (fun _ u => u) (extExOps mp 3) (.absolute lo hi)) ((), c) fun _ => -1
  | speed {c : Current 2 7 ℝ} (ha : a = -1) (he : e = 1) (h : DcParts (extExSigns a e) ![a, e] c) (hn : NewBase c.base) (mp : DcParams ℝ)
    {lo hi : Fin 2 → ℝ} (hcl : EvenRange ![a, e] lo hi) {sp : Speed 7 ℝ} (hs : SpeedParts sp 0) :
    ExtExControl a e (speedInner (torqueInner (fun _ u => u) (extExOps mp 3) (.absolute lo hi))) (sp, ((), c)) fun _ => -1

theorem extExOps_mirror (mp : DcParams ℝ) :
    MirrorOps (extExOps mp (3 : Fin 7)) (fun _ _ => True) (Signed (extExSigns (-1) 1)) (-1) ![-1, 1] := by
  refine ⟨fun _ _ _ => trivial, fun _ _ s s' t _ hs => ⟨trivial, ?_⟩⟩
  have h3 : s' 3 = s 3 := by
    rw [hs 3]
    exact one_mul _
  simp only [extExOps, Echo, Ops.extEx, h3]
  funext k
  fin_cases k
  · simp [neg_div]
  · simp

theorem extEx_mirror {a e : ℝ} {κ : Type} {k : ℕ} {I : Inner κ 7 k 2} {st : κ} {rs : Fin k → ℝ} (h : ExtExControl a e I st rs) :
    ∃ rel, MirrorInner I rel (Signed (extExSigns a e)) rs (fun u i => (![a, e] : Fin 2 → ℝ) i * u i) ∧ rel st st := by
  cases h with
  | current h hn => exact ⟨_, currentInner_mirror, new_current h.fits hn⟩
  | torque ha he h hn mp hcl =>
    subst ha he
    exact ⟨_, torqueInner_mirror (extExOps_mirror mp) (odd_absolute hcl), trivial, new_current h.fits hn⟩
  | speed ha he h hn mp hcl hs =>
    subst ha he
    exact ⟨_, speedInner_mirror (torqueInner_mirror (extExOps_mirror mp) (odd_absolute hcl)),
      new_speed (hs.fits (by simp [extExSigns])) hs.new, trivial, new_current h.fits hn⟩

theorem extEx_signed {limits : List ℝ} {a e : ℝ} {o o' : List ℝ}
    (h : Image extExStates extExStates limits id (dcSign (a * e) a e) 0 o o') : o.length = 7 ∧ o'.length = 7 ∧
    Signed (extExSigns a e) (fun i => vec 7 o i * vec 7 limits i) fun i => vec 7 o' i * vec 7 limits i := by
  have he : extExStates = ["omega", "torque", "i_a", "i_e", "u_a", "u_e", "u_sup"] := rfl
  rw [he] at h
  obtain ⟨l1, l2⟩ := h.length
  refine ⟨l1, l2, ?_⟩
  match o, o', l1, l2 with
  | [a0, a1, a2, a3, a4, a5, a6], [b0, b1, b2, b3, b4, b5, b6], _, _ =>
    have key := fun n hn he => h.entry n hn he
    have k0 := key "omega" (by simp) (by simp)
    have k1 := key "torque" (by simp) (by simp)
    have k2 := key "i_a" (by simp) (by simp)
    have k3 := key "i_e" (by simp) (by simp)
    have k4 := key "u_a" (by simp) (by simp)
    have k5 := key "u_e" (by simp) (by simp)
    have k6 := key "u_sup" (by simp) (by simp)
    simp [readState, dcSign] at k0 k1 k2 k3 k4 k5 k6
    intro i
    fin_cases i
    · simp [vec, k0, extExSigns]; ring
    · simp [vec, k1, extExSigns]; ring
    · simp [vec, k2, extExSigns]; ring
    · simp [vec, k3, extExSigns]; ring
    · simp [vec, k4, extExSigns]; ring
    · simp [vec, k5, extExSigns]; ring
    · simp [vec, k6, extExSigns]

/-- Drives with externally excited motors and their controllers, switched and averaged: `n0` and `n1` are the numbers of actions of the two
converters, `(l0, U0)` and `(l1, U1)` the ranges of the voltages. -/
def ExtExLoops {κ : Type} {k : ℕ} (mp : DcParams ℝ) (a e : ℝ) (other : AnyLoad → AnyLoad) (c0 c1 : FConv ℝ) (d0 d1 : CConv ℝ)
    (I : Inner κ 7 k 2) (c : κ) (rs : Fin k → ℝ) : Prop :=
  ∀ {P : Type} (src : Source P) (load : AnyLoad) (limits : List ℝ) (l0 U0 l1 U1 : ℝ) (refLimits : Fin k → ℝ), OneVoltage src →
    limits.length = 7 → 0 < U0 → 0 < U1 → (a = -1 → l0 = -U0) → (e = -1 → l1 = -U1) →
    SameLoop finiteMulti src load (other load) (dcTorque mp) (fun x (u : List ℝ) w => dcOde mp x (fun i => u.getD i 0) w) dcY ofDcY
      (dcFrame id (dcTq (dcTorque mp)) [0, 1] 2 1) (dcResetReport (dcTq (dcTorque mp)) [0, 1]) limits [c0, c1] (signsTwo a e)
      (Image extExStates extExStates limits id (dcSign (a * e) a e) 0) (SignedRefs rs)
      (adapter (vec 7 limits) refLimits I (discMany (.multi [c0.nActions, c1.nActions]) ![(l0, U0), (l1, U1)])) c ∧
    SameLoop contMulti src load (other load) (dcTorque mp) (fun x (u : List ℝ) w => dcOde mp x (fun i => u.getD i 0) w) dcY ofDcY
      (dcFrame id (dcTq (dcTorque mp)) [0, 1] 2 1) (dcResetReport (dcTq (dcTorque mp)) [0, 1]) limits [d0, d1] (signsTwo a e)
      (Image extExStates extExStates limits id (dcSign (a * e) a e) 0) (SignedRefs rs)
      (adapter (vec 7 limits) refLimits I (contOut ![U0, U1])) c

theorem selectAction_lt (c : FConv ℝ) (lo hi u : ℝ) : selectAction (getActions c.nActions) lo hi u < c.nActions := by
  unfold selectAction getActions
  cases c <;> simp only [FConv.nActions] <;> norm_num <;> split_ifs <;> norm_num

theorem extEx_loops {κ : Type} {k : ℕ} {mp : DcParams ℝ} {a e : ℝ} {other : AnyLoad → AnyLoad} {c0 c1 : FConv ℝ} {d0 d1 : CConv ℝ}
    {I : Inner κ 7 k 2} {c : κ} {rs : Fin k → ℝ} {rel : κ → κ → Prop} {m0 m1 : ℕ → ℕ → Prop} {g0 g1 : List ℝ → List ℝ → Prop}
    (hf : ExtExSigns mp a e other c0 c1 m0 m1) (hc : ExtExSignsCont mp a e other d0 d1 g0 g1)
    (s0 : ∀ l U u, 0 < U → (a = -1 → l = -U) → m0 (selectAction (getActions c0.nActions) l U u) (selectAction (getActions c0.nActions) l U (a * u)))
    (s1 : ∀ l U u, 0 < U → (e = -1 → l = -U) → m1 (selectAction (getActions c1.nActions) l U u) (selectAction (getActions c1.nActions) l U (e * u)))
    (t0 : ∀ x, g0 [x] [a * x]) (t1 : ∀ x, g1 [x] [e * x])
    (hI : MirrorInner I rel (Signed (extExSigns a e)) rs fun u i => (![a, e] : Fin 2 → ℝ) i * u i) (h0 : rel c c) :
    ExtExLoops mp a e other c0 c1 d0 d1 I c rs := by
  intro P src load limits l0 U0 l1 U1 refLimits h1 hl hU0 hU1 r0 r1
  refine ⟨sameLoop_of (hf src load limits h1 hl) (adapter_mirror hI (fun o o' ho => extEx_signed ho) fun u => ?_) h0,
    sameLoop_of (hc src load limits h1 hl) (adapter_mirror hI (fun o o' ho => extEx_signed ho) fun u => ?_) h0⟩
  · have key : ∀ v : Fin 2 → ℝ, discMany (.multi [c0.nActions, c1.nActions]) ![(l0, U0), (l1, U1)] v =
        .ok [selectAction (getActions c0.nActions) l0 U0 (v 0), selectAction (getActions c1.nActions) l1 U1 (v 1)] := by
      intro v
      simp [discMany, discOutput, selectAll, List.ofFn_succ]
    rw [key, key]
    exact ⟨_, _, _, _, rfl, rfl, s0 _ _ _ hU0 r0, s1 _ _ _ hU1 r1⟩
  · have key : ∀ v : Fin 2 → ℝ, contOut ![U0, U1] v = .ok ([v 0 / U0] ++ [v 1 / U1]) := by
      intro v
      simp [contOut, contOutput, List.ofFn_succ]
    rw [key, key]
    refine ⟨_, _, _, _, rfl, rfl, rfl, rfl, rfl, rfl, ?_, ?_⟩
    · have := t0 (u 0 / U0)
      simpa [mul_div_assoc] using this
    · have := t1 (u 1 / U1)
      simpa [mul_div_assoc] using this

/-- C137 for externally excited motors: reversed armature, reversed excitation (current control), both (current control). -/
theorem c137_extEx {a e : ℝ} {κ : Type} {k : ℕ} {I : Inner κ 7 k 2} {st : κ} {rs : Fin k → ℝ} (h : ExtExControl a e I st rs) :
    Opposed I st (Signed (extExSigns a e)) rs (fun u i => (![a, e] : Fin 2 → ℝ) i * u i) ∧
    ∀ (mp : DcParams ℝ) (T i T' i' : ℝ) (c : FConv ℝ) (_ : AllLegs LegFine c) (d : CConv ℝ) (_ : d.dim = 1),
      (a = -1 → e = 1 → ExtExLoops mp a e AnyLoad.opposite (.four (FourQC.new T i)) c (.four (CFour.new T i)) d I st rs) ∧
      (a = 1 → e = -1 → ExtExLoops mp a e AnyLoad.opposite c (.four (FourQC.new T i)) d (.four (CFour.new T i)) I st rs) ∧
      (a = -1 → e = -1 → ExtExLoops mp a e id (.four (FourQC.new T i)) (.four (FourQC.new T' i')) (.four (CFour.new T i))
        (.four (CFour.new T' i')) I st rs) := by
  obtain ⟨rel, hI, h0⟩ := extEx_mirror h
  refine ⟨hI.opposed h0, ?_⟩
  intro mp T i T' i' c hc d hd
  obtain ⟨⟨f1, f2, f3⟩, g1, g2, g3⟩ := c136_extEx mp T i T' i' c hc d hd
  have opp : ∀ l U u : ℝ, 0 < U → ((-1 : ℝ) = -1 → l = -U) →
      SwitchesOpposite (selectAction (getActions 4) l U u) (selectAction (getActions 4) l U (-1 * u)) := by
    intro l U u hU hl
    rw [hl rfl, neg_one_mul]
    exact selectAction_four hU u
  have same : ∀ (c : FConv ℝ) (l U u : ℝ), selectAction (getActions c.nActions) l U u = selectAction (getActions c.nActions) l U (1 * u) ∧
      selectAction (getActions c.nActions) l U u < c.nActions := fun c l U u => ⟨by rw [one_mul], selectAction_lt c l U u⟩
  refine ⟨?_, ?_, ?_⟩
  · rintro rfl rfl
    exact extEx_loops f1 g1 opp (fun l U u _ _ => same c l U u) (fun x => ⟨x, rfl, by rw [neg_one_mul]⟩) (fun x => ⟨by rw [one_mul], rfl⟩) hI h0
  · rintro rfl rfl
    exact extEx_loops f2 g2 (fun l U u _ _ => same c l U u) opp (fun x => ⟨by rw [one_mul], rfl⟩) (fun x => ⟨x, rfl, by rw [neg_one_mul]⟩) hI h0
  · rintro rfl rfl
    exact extEx_loops f3 g3 opp opp (fun x => ⟨x, rfl, by rw [neg_one_mul]⟩) (fun x => ⟨x, rfl, by rw [neg_one_mul]⟩) hI h0

end dc

/-! ## Three-phase motors -/

section ac

variable {m : ℕ}

/-- States in both directions: speed, direct and transverse current, angle. -/
structure Turning (om d q e : Fin m) (s s' : Fin m → ℝ) : Prop where
  om : s' om = -s om
  d : s' d = s d
  q : s' q = -s q
  e : ∃ k : ℤ, s' e = -s e + 2 * Real.pi * k

theorem abc_mirror (t : Abc) {om d q e : Fin m} {s s' : Fin m → ℝ} (h : Turning om d q e s s') (u : Fin 2 → ℝ) :
    t.call (s' e) (s' om) (reflect u) = t.call (s e) (s om) u ∘ swapBC := by
  obtain ⟨k, hk⟩ := h.e
  have ha : t.angle (s' e) (s' om) = -t.angle (s e) (s om) + 2 * Real.pi * k := by
    unfold Abc.angle
    rw [hk, h.om]
    ring
  unfold Abc.call
  rw [ha]
  have := dqToAbc_turns (reflect u) (-t.angle (s e) (s om)) k
  unfold dqToAbc at this
  rw [this]
  exact dqToAbc_reflect u _

theorem reflect_signs (u : Fin 2 → ℝ) : (fun i => (![1, -1] : Fin 2 → ℝ) i * u i) = reflect u := by
  funext i
  fin_cases i <;> simp [reflect]

/-- Current control of PMSM and SynRM: the transformation reads angle `e` and speed `om`; the feedforward stage, if any, is the one of
emf_feedforward.py with any inductances `[-lq, ld]` and flux. -/
structure SyncParts (om d q : Fin m) (c : Current 2 m ℝ) : Prop where
  idx : c.base.idx = ![d, q]
  idx' : c.idx = ![d, q]
  ff : c.ff = none ∨ ∃ p lq ld psi, c.ff = some (emf p ![-lq, ld] ![0, psi] ![q, d] om)
  clip : ∃ limits margin, c.clipping = .squared limits margin

theorem two_signs : ∀ i, Sign ((![1, -1] : Fin 2 → ℝ) i) := by
  intro i
  fin_cases i
  · exact .inl rfl
  · exact .inr rfl

theorem SyncParts.fits {om d q : Fin m} {c : Current 2 m ℝ} (h : SyncParts om d q c) (t : Abc) (e : Fin m) :
    CurrentFits (fun s u => t.call (s e) (s om) u) (Turning om d q e) ![1, -1] (fun u => u ∘ swapBC) c where
  sign := two_signs
  idx s s' i hs := by
    rw [h.idx]
    fin_cases i
    · simp [hs.d]
    · simp [hs.q]
  idx' s s' i hs := by
    rw [h.idx']
    fin_cases i
    · simp [hs.d]
    · simp [hs.q]
  ff f hf s s' u hs := by
    rcases h.ff with e' | ⟨p, lq, ld, psi, e'⟩
    · rw [e'] at hf
      cases hf
    · rw [e'] at hf
      cases hf
      funext i
      fin_cases i
      · simp [emf, hs.q, hs.om]
      · simp [emf, hs.d, hs.om]; ring
  clip := by
    obtain ⟨l, mg, e'⟩ := h.clip
    rw [e']
    exact odd_squared two_signs l mg
  out s s' u hs := by
    rw [reflect_signs]
    exact abc_mirror t hs u

theorem sync_turning {limits : List ℝ} {o o' : List ℝ} (h : Image syncStates syncStates limits swapped oppositeSign 0 o o')
    (hl : limits.length = 14) : o.length = 14 ∧ o'.length = 14 ∧
    Turning (0 : Fin 14) 5 6 12 (fun i => vec 14 o i * vec 14 limits i) fun i => vec 14 o' i * vec 14 limits i := by
  rw [syncStates_eq] at h
  obtain ⟨l1, l2⟩ := h.length
  refine ⟨l1, l2, ?_⟩
  match o, o', limits, l1, l2, hl with
  | [a0, a1, a2, a3, a4, a5, a6, a7, a8, a9, a10, a11, a12, a13], [b0, b1, b2, b3, b4, b5, b6, b7, b8, b9, b10, b11, b12, b13],
    [c0, c1, c2, c3, c4, c5, c6, c7, c8, c9, c10, c11, c12, c13], _, _, _ =>
    have key := fun n hn he => h.entry n hn he
    have k0 := key "omega" (by simp) (by simp)
    have k1 := key "i_sd" (by simp) (by simp)
    have k2 := key "i_sq" (by simp) (by simp)
    have k3 := h.angle (by simp)
    simp [readState, oppositeSign, swapped] at k0 k1 k2 k3
    refine ⟨?_, ?_, ?_, ?_⟩
    · simp [vec, k0]
    · simp [vec, k1]
    · simp [vec, k2]
    · obtain ⟨k, hk⟩ := k3
      exact ⟨k, by simpa [vec] using hk⟩

/-- Drives with PMSM or SynRM and a current controller in both directions. -/
def SyncLoops (torque : (Fin 3 → ℝ) → ℝ) (ode : (Fin 3 → ℝ) → (Fin 2 → ℝ) → ℝ → Fin 3 → ℝ) (t : Abc) (c : Current 2 14 ℝ) : Prop :=
  ∀ {P : Type} (src : Source P) (load : AnyLoad) (limits : List ℝ) (T i U : ℝ) (refLimits : Fin 2 → ℝ), OneVoltage src →
    EvenLimits syncStates syncStates limits swapped →
    SameLoop contPower src load load.opposite torque ode syncY ofSyncY (syncFrame (syncTq torque) false) (syncReset (syncTq torque)) limits
      (.b6 (CB6.new T i)) mirrorSync (Image syncStates syncStates limits swapped oppositeSign 0) (SignedRefs ![1, -1])
      (adapter (vec 14 limits) refLimits (currentInner fun s u => t.call (s 12) (s 0) u) (contOut fun _ => U)) c

/-- C137 for PMSM and SynRM: current control. -/
theorem c137_sync {om d q : Fin m} {c : Current 2 m ℝ} (h : SyncParts om d q c) (hn : NewBase c.base) (t : Abc) (e : Fin m) :
    Opposed (currentInner fun s u => t.call (s e) (s om) u) c (Turning om d q e) ![1, -1] fun u => u ∘ swapBC :=
  currentInner_mirror.opposed (new_current (h.fits t e) hn)

/-- C137 for PMSM and SynRM: drives with current control. -/
theorem c137_sync_drive (mp : SyncParams ℝ) {c : Current 2 14 ℝ} (h : SyncParts 0 5 6 c) (hn : NewBase c.base) (t : Abc) :
    SyncLoops (pmsmTorque mp) (syncOde (pmsmConstants mp)) t c ∧ SyncLoops (synrmTorque mp) (syncOde (synrmConstants mp)) t c := by
  have key : ∀ {torque ode}, SyncReverses torque ode → SyncLoops torque ode t c := by
    intro torque ode hr P src load limits T i U refLimits h1 hl
    refine sameLoop_of (hr src load limits T i h1 hl).2.1
      (adapter_mirror currentInner_mirror (fun o o' ho => sync_turning ho hl.length) fun u => ?_) (new_current (h.fits t 12) hn)
    exact ⟨fun k => u k / U, rfl, rfl⟩
  exact ⟨key (c136_sync mp).1, key (c136_sync mp).2⟩

/-- Current control of the EESM; `x` is the index of the exciting current. -/
structure EesmParts (om d q x : Fin m) (c : Current 3 m ℝ) : Prop where
  idx : c.base.idx = ![d, q, x]
  idx' : c.idx = ![d, q, x]
  ff : c.ff = none ∨ ∃ mp, c.ff = some (emfEesm mp om d q x)
  clip : ∃ limits lo hi margin, c.clipping = .combined ![true, true, false] limits lo hi margin

/-- the transformation of the EESM: the voltage of the excitation stays as it is (abc_transformation.py 53–57) -/
def eesmAbc (t : Abc) (om e : Fin m) (s : Fin m → ℝ) (u : Fin 3 → ℝ) : Fin (3 + 1) → ℝ :=
  Fin.append (t.call (s e) (s om) ![u 0, u 1]) fun _ => u 2

theorem three_signs : ∀ i, Sign ((![1, -1, 1] : Fin 3 → ℝ) i) := by
  intro i
  fin_cases i
  · exact .inl rfl
  · exact .inr rfl
  · exact .inl rfl

theorem EesmParts.fits {om d q x : Fin m} {c : Current 3 m ℝ} (h : EesmParts om d q x c) (t : Abc) (e : Fin m) :
    CurrentFits (eesmAbc t om e) (fun s s' => Turning om d q e s s' ∧ s' x = s x) ![1, -1, 1] swapThree c where
  sign := three_signs
  idx s s' i hs := by
    rw [h.idx]
    fin_cases i
    · simp [hs.1.d]
    · simp [hs.1.q]
    · simp [hs.2]
  idx' s s' i hs := by
    rw [h.idx']
    fin_cases i
    · simp [hs.1.d]
    · simp [hs.1.q]
    · simp [hs.2]
  ff f hf s s' u hs := by
    rcases h.ff with e' | ⟨mp, e'⟩
    · rw [e'] at hf
      cases hf
    · rw [e'] at hf
      cases hf
      funext i
      fin_cases i
      · simp [emfEesm, emf, hs.1.q, hs.1.d, hs.1.om, hs.2]
      · simp [emfEesm, emf, hs.1.q, hs.1.d, hs.1.om, hs.2]; ring
      · simp [emfEesm, emf, hs.1.q, hs.1.d, hs.1.om, hs.2]
  clip := by
    obtain ⟨l, lo, hi, mg, e'⟩ := h.clip
    rw [e']
    refine odd_combined three_signs _ l mg fun i => ?_
    fin_cases i
    · exact .inl rfl
    · exact .inl rfl
    · exact .inr (.inl rfl)
  out s s' u hs := by
    have e1 : (![(![1, -1, 1] : Fin 3 → ℝ) 0 * u 0, (![1, -1, 1] : Fin 3 → ℝ) 1 * u 1] : Fin 2 → ℝ) = reflect ![u 0, u 1] := by
      simp [reflect]
    have e2 : (![1, -1, 1] : Fin 3 → ℝ) 2 * u 2 = u 2 := by simp
    unfold eesmAbc swapThree
    simp only [e1, e2, onBoth_append]
    rw [abc_mirror t hs.1]

/-- C137 for the EESM: current control. -/
theorem c137_eesm {om d q x : Fin m} {c : Current 3 m ℝ} (h : EesmParts om d q x c) (hn : NewBase c.base) (t : Abc) (e : Fin m) :
    Opposed (currentInner (eesmAbc t om e)) c (fun s s' => Turning om d q e s s' ∧ s' x = s x) ![1, -1, 1] swapThree :=
  currentInner_mirror.opposed (new_current (h.fits t e) hn)

theorem eesm_turning {limits : List ℝ} {o o' : List ℝ} (h : Image eesmStates eesmTold limits swapped oppositeSign 0 o o')
    (hl : limits.length = 16) : o.length = 16 ∧ o'.length = 16 ∧
    (Turning (0 : Fin 16) 5 6 14 (fun i => vec 16 o i * vec 16 limits i) fun i => vec 16 o' i * vec 16 limits i) ∧
    vec 16 o' 7 * vec 16 limits 7 = vec 16 o 7 * vec 16 limits 7 := by
  rw [eesmStates_eq] at h
  obtain ⟨l1, l2⟩ := h.length
  refine ⟨l1, l2, ?_⟩
  match o, o', limits, l1, l2, hl with
  | [a0, a1, a2, a3, a4, a5, a6, a7, a8, a9, a10, a11, a12, a13, a14, a15],
    [b0, b1, b2, b3, b4, b5, b6, b7, b8, b9, b10, b11, b12, b13, b14, b15],
    [c0, c1, c2, c3, c4, c5, c6, c7, c8, c9, c10, c11, c12, c13, c14, c15], _, _, _ =>
    have key := fun n hn he => h.entry n hn he
    have k0 := key "omega" (by simp [eesmTold]) (by simp)
    have k1 := key "i_sd" (by simp [eesmTold]) (by simp)
    have k2 := key "i_sq" (by simp [eesmTold]) (by simp)
    have k4 := key "i_e" (by simp [eesmTold]) (by simp)
    have k3 := h.angle (by simp [eesmTold])
    simp [readState, oppositeSign, swapped] at k0 k1 k2 k3 k4
    refine ⟨⟨?_, ?_, ?_, ?_⟩, ?_⟩
    · simp [vec, k0]
    · simp [vec, k1]
    · simp [vec, k2]
    · obtain ⟨k, hk⟩ := k3
      exact ⟨k, by simpa [vec] using hk⟩
    · simp [vec, k4]

/-- C137 for the EESM: drives with current control. -/
theorem c137_eesm_drive (ee : EesmParams ℝ) {c : Current 3 16 ℝ} (h : EesmParts 0 5 6 7 c) (hn : NewBase c.base) (t : Abc) {P : Type}
    (src : Source P) (load : AnyLoad) (limits : List ℝ) (T i U V : ℝ) (refLimits : Fin 3 → ℝ) (h1 : OneVoltage src)
    (hl : EvenLimits eesmStates eesmTold limits swapped) (cx : CConv ℝ) (hc : cx.dim = 1) :
    SameLoop contMulti src load load.opposite (eesmTorque ee) (fun x (u : List ℝ) w => eesmOde ee x (fun i => u.getD i 0) w) eesmY ofEesmY
      (eesmFrame (eesmTq ee)) (eesmReset (eesmTq ee)) limits [.b6 (CB6.new T i), cx] mirrorEesm
      (Image eesmStates eesmTold limits swapped oppositeSign 0) (SignedRefs ![1, -1, 1])
      (adapter (vec 16 limits) refLimits (currentInner (eesmAbc t 0 14)) (contOut (Fin.append (fun _ : Fin 3 => U) fun _ : Fin 1 => V))) c := by
  refine sameLoop_of (c136_eesm_partial ee src load limits T i h1 hl (.one (OneQC.new T)) ?_ cx hc).2
    (adapter_mirror currentInner_mirror (fun o o' ho => eesm_turning ho hl.length) fun u => ?_) (new_current (h.fits t 14) hn)
  · trivial
  · have key : ∀ v : Fin (3 + 1) → ℝ, contOut (Fin.append (fun _ : Fin 3 => U) fun _ : Fin 1 => V) v =
        .ok (List.ofFn (fun k : Fin 3 => v (Fin.castAdd 1 k) / U) ++ [v 3 / V]) := by
      intro v
      have e : contOutput (Fin.append (fun _ : Fin 3 => U) fun _ : Fin 1 => V) v =
          Fin.append (fun k : Fin 3 => v (Fin.castAdd 1 k) / U) fun _ : Fin 1 => v 3 / V := by
        funext k
        refine Fin.addCases (fun k => ?_) (fun k => ?_) k
        · simp only [contOutput, Fin.append_left]
        · rw [Fin.eq_zero k]
          simp only [contOutput, Fin.append_right]
          rfl
      unfold contOut
      rw [e, List.ofFn_fin_append]
      simp
    obtain ⟨w1, w2⟩ := swapThree_parts u
    rw [key, key, w2]
    refine ⟨_, _, _, _, rfl, rfl, by simp, by simp, rfl, rfl, ⟨fun k => u (Fin.castAdd 1 k) / U, rfl, ?_⟩, rfl, rfl⟩
    congr 1
    funext k
    have := congrFun w1 k
    simp only [Function.comp] at this ⊢
    rw [this]

/-- Current control of the SCIM with a flux observer; `f` is the index of the observed flux. -/
structure ScimParts (om d q f : Fin m) (c : Current 2 m ℝ) : Prop where
  idx : c.base.idx = ![d, q]
  idx' : c.idx = ![d, q]
  ff : c.ff = none ∨ ∃ mp, c.ff = some fun s r => emfInd mp (s om) (s d) (s q) (s f) r
  clip : ∃ limits margin, c.clipping = .squared limits margin

theorem ScimParts.fits {om d q f : Fin m} {c : Current 2 m ℝ} (h : ScimParts om d q f c) (t : Abc) (e : Fin m) :
    CurrentFits (fun s u => t.call (s e) (s om) u) (fun s s' => Turning om d q e s s' ∧ s' f = s f) ![1, -1] (fun u => u ∘ swapBC) c where
  sign := two_signs
  idx s s' i hs := by
    rw [h.idx]
    fin_cases i
    · simp [hs.1.d]
    · simp [hs.1.q]
  idx' s s' i hs := by
    rw [h.idx']
    fin_cases i
    · simp [hs.1.d]
    · simp [hs.1.q]
  ff g hf s s' u hs := by
    rcases h.ff with e' | ⟨mp, e'⟩
    · rw [e'] at hf
      cases hf
    · rw [e'] at hf
      cases hf
      have hw : omegaS mp (-s om) (-s q) (s f) = -omegaS mp (s om) (s q) (s f) := by
        unfold omegaS
        ring
      funext i
      fin_cases i
      · simp [emfInd, hs.1.q, hs.1.d, hs.1.om, hs.2, hw]
      · simp [emfInd, hs.1.q, hs.1.d, hs.1.om, hs.2, hw]; ring
  clip := by
    obtain ⟨l, mg, e'⟩ := h.clip
    rw [e']
    exact odd_squared two_signs l mg
  out s s' u hs := by
    rw [reflect_signs]
    exact abc_mirror t hs.1 u

/-- C137 for the SCIM: current control with observed flux and observed angle of the flux. -/
theorem c137_scim {om d q f : Fin m} {c : Current 2 m ℝ} (h : ScimParts om d q f c) (hn : NewBase c.base) (t : Abc) (e : Fin m) :
    Opposed (currentInner fun s u => t.call (s e) (s om) u) c (fun s s' => Turning om d q e s s' ∧ s' f = s f) ![1, -1] fun u => u ∘ swapBC :=
  currentInner_mirror.opposed (new_current (h.fits t e) hn)

end ac

/-! ## Operation points of synchronous motors -/

section points

open GEM.Ops hiding sign

/-- The MTPC table that `tune` computes, with `n` rows (pmsm_ops.py 43–87). -/
def Tabled (c : Sync) (grid : List ℝ) : Prop :=
  List.Forall₂ (fun t r => mtpcRow c.mp grid t = some r) (linspace (-c.maxTorque) c.maxTorque c.tCount) c.mtpc

theorem firstMin_map {α β : Type} (f : β → ℝ) (g g' : α → β) (h : ∀ a, f (g a) = f (g' a)) (l : List α) :
    (firstMin f (l.map g) = none ∧ firstMin f (l.map g') = none) ∨
    ∃ k a, a ∈ l ∧ firstMin f (l.map g) = some (k, g a) ∧ firstMin f (l.map g') = some (k, g' a) := by
  induction l with
  | nil => exact .inl ⟨rfl, rfl⟩
  | cons x l ih =>
    right
    rcases ih with ⟨h1, h2⟩ | ⟨k, a, ha, h1, h2⟩
    · exact ⟨0, x, by simp, by simp only [List.map_cons, firstMin, h1], by simp only [List.map_cons, firstMin, h2]⟩
    · simp only [List.map_cons, firstMin, h1, h2, h]
      split
      · exact ⟨k + 1, a, by simp [ha], rfl, rfl⟩
      · exact ⟨0, x, by simp, rfl, rfl⟩

theorem opsSign_neg (x : ℝ) : Ops.sign (-x) = -Ops.sign x := by
  unfold Ops.sign sgn
  rcases lt_trichotomy x 0 with h | h | h
  · simp [h, not_lt.mpr h.le]
  · simp [h]
  · simp [h, not_lt.mpr h.le]

/-- the rows of opposite torques -/
theorem mtpcRow_neg (mp : SyncParams ℝ) (grid : List ℝ) (t : ℝ) :
    mtpcRow mp grid (-t) = (mtpcRow mp grid t).map fun r => ⟨-r.t, r.iD, -r.iQ, r.psi⟩ := by
  have flux : ∀ a b, fluxOf mp a (-b) = fluxOf mp a b := by
    intro a b
    simp [fluxOf]
  unfold mtpcRow
  split
  · split
    · rfl
    · simp only [neg_div, flux, Option.map_some]
  · obtain ⟨g, hg⟩ : ∃ g : ℝ → ℝ → ℝ × ℝ, g = fun t a => if mp.psiP = 0 then (-|t / (3 / 2 * mp.p * (mp.ld - mp.lq) * a)|, a)
        else (a, t / (a * (mp.ld - mp.lq) + mp.psiP) / (3 / 2 * mp.p)) := ⟨_, rfl⟩
    have h : ∀ a, (fun v : ℝ × ℝ => v.1 ^ 2 + v.2 ^ 2) (g t a) = (fun v : ℝ × ℝ => v.1 ^ 2 + v.2 ^ 2) (g (-t) a) := by
      intro a
      rw [hg]
      simp only
      split
      · simp only [neg_div, abs_neg]
      · simp only [neg_div, neg_sq]
    have e : ∀ t, mtpcPairs mp grid t = grid.map (g t) := by
      intro t
      rw [hg]
      unfold mtpcPairs
      split <;> rfl
    rw [e t, e (-t)]
    have hs : Ops.sign ((mp.lq - mp.ld) * -t) = -Ops.sign ((mp.lq - mp.ld) * t) := by rw [mul_neg, opsSign_neg]
    rcases firstMin_map (fun v : ℝ × ℝ => v.1 ^ 2 + v.2 ^ 2) (g t) (g (-t)) h grid with ⟨h1, h2⟩ | ⟨k, a, -, h1, h2⟩
    · rw [h1, h2]
      rfl
    · rw [h1, h2]
      simp only [hs, Option.map_some, hg]
      split
      · simp only [neg_div, abs_neg, neg_mul, flux]
      · simp only [neg_div, abs_neg, neg_mul, flux]

theorem pyRound_sub (n : ℤ) {x : ℝ} (h : ∀ z : ℤ, x ≠ z + 1 / 2) : pyRound (n - x) = n - pyRound x := by
  have key : ∀ (y : ℝ) (k : ℤ), |(k : ℝ) - y| < 1 / 2 → pyRound y = k := by
    intro y k hk
    have h1 := pyRound_near y
    have h2 : |(pyRound y : ℝ) - k| < 1 := by
      calc |(pyRound y : ℝ) - k| = |((pyRound y : ℝ) - y) - (k - y)| := by ring_nf
        _ ≤ |(pyRound y : ℝ) - y| + |(k : ℝ) - y| := abs_sub _ _
        _ < 1 := by linarith
    have h3 : |pyRound y - k| < 1 := by exact_mod_cast h2
    rw [abs_lt] at h3
    omega
  apply key
  have h1 := pyRound_near x
  have h2 : |(pyRound x : ℝ) - x| ≠ 1 / 2 := by
    intro e
    rcases abs_choice ((pyRound x : ℝ) - x) with e' | e' <;> rw [e'] at e
    · exact h (pyRound x - 1) (by push_cast; linarith)
    · exact h (pyRound x) (by linarith)
  have h3 : |(pyRound x : ℝ) - x| < 1 / 2 := lt_of_le_of_ne h1 h2
  have e : ((n - pyRound x : ℤ) : ℝ) - (n - x) = -((pyRound x : ℝ) - x) := by push_cast; ring
  rw [e, abs_neg]
  exact h3

/-- C137 for the online operation points of PMSM and SynRM, as far as it holds: the opposite torque gets the opposite transverse current,
unless the torque lies in the middle between two rows of the table.  `pick` is the number taken from `np.roots`, a function of the
polynomial. -/
theorem c137_online_partial (c : Sync) (grid : List ℝ) (ht : Tabled c grid) (hM : 0 < c.maxTorque) (hn : 2 ≤ c.tCount) (pick : List ℝ → ℝ)
    (psiMod torque : ℝ) (h : |torque| ≤ c.maxTorque)
    (hmid : ∀ z : ℤ, (torque + c.maxTorque) / (2 * c.maxTorque) * (c.tCount - 1) ≠ z + 1 / 2) :
    Echo (fun v v' => v' = (v.1, -v.2)) (selectOnline c (fun t psi => pick (pmsmPoly c.mp t psi)) psiMod torque)
      (selectOnline c (fun t psi => pick (pmsmPoly c.mp t psi)) psiMod (-torque)) := by
  obtain ⟨ha, hb⟩ := abs_le.mp h
  have hn1 : (0 : ℝ) < c.tCount - 1 := by
    have : (2 : ℝ) ≤ c.tCount := by exact_mod_cast hn
    linarith
  obtain ⟨x, hx⟩ : ∃ x, x = (torque + c.maxTorque) / (2 * c.maxTorque) * (c.tCount - 1) := ⟨_, rfl⟩
  have hx0 : 0 ≤ x := by
    rw [hx]
    exact mul_nonneg (div_nonneg (by linarith) (by linarith)) hn1.le
  have hx1 : x ≤ ((c.tCount - 1 : ℤ) : ℝ) := by
    push_cast
    have h1 : (torque + c.maxTorque) / (2 * c.maxTorque) ≤ 1 := by rw [div_le_one (by linarith)]; linarith
    rw [hx]
    calc _ ≤ 1 * ((c.tCount : ℝ) - 1) := mul_le_mul_of_nonneg_right h1 hn1.le
      _ = _ := one_mul _
  obtain ⟨k1, k2⟩ := pyRound_mono_bounds (a := 0) (by simpa using hx0) hx1
  have hx' : (-torque + c.maxTorque) / (2 * c.maxTorque) * (c.tCount - 1) = ((c.tCount - 1 : ℤ) : ℝ) - x := by
    rw [hx]
    push_cast
    field_simp
    ring
  have hr := pyRound_sub (c.tCount - 1) (x := x) (by rw [hx]; exact hmid)
  have i1 : idxMtpc c.maxTorque c.tCount torque = pyRound x := by
    rw [idxMtpc, ← hx, clip, max_eq_left k1, min_eq_left (by omega)]
  have i2 : idxMtpc c.maxTorque c.tCount (-torque) = c.tCount - 1 - pyRound x := by
    rw [idxMtpc, hx', hr, clip, max_eq_left (by omega), min_eq_left (by omega)]
  obtain ⟨k, hk⟩ := Int.eq_ofNat_of_zero_le k1
  have hkn : k < c.tCount := by omega
  have hlen : c.mtpc.length = c.tCount := by
    rw [← ht.length_eq]
    simp [linspace]
  have row : ∀ j : ℕ, ∀ hj : j < c.tCount, mtpcRow c.mp grid (-c.maxTorque + j * ((c.maxTorque - -c.maxTorque) / (c.tCount - 1))) =
      some (c.mtpc[j]'(by omega)) := by
    intro j hj
    have := List.Forall₂.get ht (i := j) (by simpa [linspace] using hj) (by omega)
    simpa [linspace] using this
  have j1 : at? c.mtpc (idxMtpc c.maxTorque c.tCount torque) = .ok (c.mtpc[k]'(by omega)) := by
    rw [i1, hk, at?, Int.toNat_natCast, List.getElem?_eq_getElem (by omega)]
  have j2 : at? c.mtpc (idxMtpc c.maxTorque c.tCount (-torque)) = .ok (c.mtpc[c.tCount - 1 - k]'(by omega)) := by
    rw [i2, hk, at?, show ((c.tCount : ℤ) - 1 - (k : ℤ)).toNat = c.tCount - 1 - k by omega, List.getElem?_eq_getElem (by omega)]
  have hrow : c.mtpc[c.tCount - 1 - k]'(by omega) =
      ⟨-(c.mtpc[k]'(by omega)).t, (c.mtpc[k]'(by omega)).iD, -(c.mtpc[k]'(by omega)).iQ, (c.mtpc[k]'(by omega)).psi⟩ := by
    have r1 := row k hkn
    have r2 := row (c.tCount - 1 - k) (by omega)
    have e : -c.maxTorque + ((c.tCount - 1 - k : ℕ) : ℝ) * ((c.maxTorque - -c.maxTorque) / (c.tCount - 1)) =
        -(-c.maxTorque + k * ((c.maxTorque - -c.maxTorque) / (c.tCount - 1))) := by
      rw [Nat.cast_sub (by omega), Nat.cast_sub (by omega)]
      push_cast
      field_simp
      ring
    rw [e, mtpcRow_neg, r1] at r2
    exact (Option.some.inj r2).symm
  unfold selectOnline
  simp only [j1, j2, hrow]
  obtain ⟨opt, hopt⟩ : ∃ r, r = c.mtpc[k]'(by omega) := ⟨_, rfl⟩
  rw [← hopt]
  cases hf : at? c.mtpf (idxMtpf c.psiMaxMtpf c.psiCount (min opt.psi psiMod)) with
  | error e => simp [Echo]
  | ok f =>
    simp only [abs_neg, opsSign_neg]
    obtain ⟨t, hte⟩ : ∃ t, t = if |f.t| < |torque| then Ops.sign torque * |f.t| else torque := ⟨_, rfl⟩
    have hte' : (if |f.t| < |torque| then -Ops.sign torque * |f.t| else -torque) = -t := by
      rw [hte]
      split
      · ring
      · rfl
    rw [hte', ← hte]
    have hp : pmsmPoly c.mp (-t) (min opt.psi psiMod) = pmsmPoly c.mp t (min opt.psi psiMod) := by
      unfold pmsmPoly
      simp only [mul_neg, neg_div, neg_sq]
    rw [hp]
    have hsol : ∀ d, pmsmSolve c.mp (-t) d = (d, -(pmsmSolve c.mp t d).2) := by
      intro d
      simp only [pmsmSolve, mul_neg, neg_div]
    rw [hsol]
    have h1 : ∀ d, (pmsmSolve c.mp t d).1 = d := fun _ => rfl
    simp only [h1, opsSign_neg, Echo]
    by_cases hd : opt.iD < pick (pmsmPoly c.mp t (min opt.psi psiMod))
    · simp only [hd, if_true]
      by_cases hd' : opt.iD < f.iD
      · simp only [hd', if_true]
        simp
      · simp only [hd', if_false]
        simp
    · simp only [hd, if_false]
      by_cases hd' : pick (pmsmPoly c.mp t (min opt.psi psiMod)) < f.iD
      · simp only [hd', if_true, h1]
        simp
      · simp only [hd', if_false, h1]
        simp

/-- C137 is violated at torque zero: the table has 250 rows (pmsm_ops.py 152), none of them of torque 0, and round puts torque 0 into row
124, of negative torque.  With equal inductances and enough voltage the answer is the current of this row. -/
theorem c137_online_violated (c : Sync) (grid : List ℝ) (ht : Tabled c grid) (h250 : c.tCount = 250) (hM : 0 < c.maxTorque)
    (hL : c.mp.ld = c.mp.lq) (hl : 0 < c.mp.ld) (hp : 0 < c.mp.p) (hpsi : 0 < c.mp.psiP) (root : ℝ → ℝ → ℝ)
    (hroot : ∀ psi, 0 < psi → polyVal (pmsmPoly c.mp 0 psi) (root 0 psi) = 0 ∧ -c.mp.psiP / c.mp.ld < root 0 psi) (f : Row) (psiMod : ℝ)
    (hf : at? c.mtpf (idxMtpf c.psiMaxMtpf c.psiCount (fluxOf c.mp 0 (c.maxTorque / 249 / c.mp.psiP / (3 / 2 * c.mp.p)))) = .ok f)
    (hfd : f.iD ≤ 0)
    (hmod : fluxOf c.mp 0 (c.maxTorque / 249 / c.mp.psiP / (3 / 2 * c.mp.p)) ≤ psiMod) :
    ∃ y, selectOnline c root psiMod 0 = .ok (0, y) ∧ torqueOf c.mp 0 y = -(c.maxTorque / 249) := by
  have hlen : c.mtpc.length = 250 := by
    rw [← ht.length_eq, ← h250]
    simp [linspace]
  have hidx : idxMtpc c.maxTorque c.tCount 0 = 124 := by
    have e : (0 + c.maxTorque) / (2 * c.maxTorque) * ((c.tCount : ℝ) - 1) = 249 / 2 := by
      rw [h250]
      field_simp
      norm_num
    have fl : ⌊(249 / 2 : ℝ)⌋ = 124 := by
      rw [Int.floor_eq_iff]
      norm_num
    rw [idxMtpc, e, pyRound, fl, h250]
    norm_num [clip]
  have hr : mtpcRow c.mp grid (-(c.maxTorque / 249)) = some (c.mtpc[124]'(by omega)) := by
    have := List.Forall₂.get ht (i := 124) (by simp [linspace, h250]) (by omega)
    simp only [List.get_eq_getElem, linspace, List.getElem_map, List.getElem_range, h250] at this
    rw [← this]
    congr 1
    push_cast
    ring
  obtain ⟨y, hy⟩ : ∃ y, y = -(c.maxTorque / 249) / c.mp.psiP / (3 / 2 * c.mp.p) := ⟨_, rfl⟩
  have hopt : c.mtpc[124]'(by omega) = ⟨-(c.maxTorque / 249), 0, y, fluxOf c.mp 0 y⟩ := by
    rw [mtpcRow, if_pos hL, if_neg hpsi.ne'] at hr
    simp only [zero_mul, zero_add] at hr
    rw [← hy] at hr
    exact (Option.some.inj hr).symm
  have hat : at? c.mtpc 124 = .ok ⟨-(c.maxTorque / 249), 0, y, fluxOf c.mp 0 y⟩ := by
    rw [← hopt, at?, show (124 : ℤ).toNat = 124 from rfl, List.getElem?_eq_getElem (by omega)]
  have hyn : y < 0 := by
    rw [hy, neg_div, neg_div, neg_lt_zero]
    positivity
  have hsame : fluxOf c.mp 0 (c.maxTorque / 249 / c.mp.psiP / (3 / 2 * c.mp.p)) = fluxOf c.mp 0 y := by
    rw [hy, neg_div, neg_div]
    simp [fluxOf]
  rw [hsame] at hf hmod
  have hpos : 0 < root 0 (fluxOf c.mp 0 y) := by
    have hfl : 0 < fluxOf c.mp 0 y := Real.sqrt_pos.mpr (by positivity)
    obtain ⟨r1, r2⟩ := hroot (fluxOf c.mp 0 y) hfl
    obtain ⟨r, hr'⟩ : ∃ r, r = root 0 (fluxOf c.mp 0 y) := ⟨_, rfl⟩
    rw [← hr'] at r1 r2 ⊢
    have hsq : fluxOf c.mp 0 y ^ 2 = c.mp.psiP ^ 2 + (c.mp.lq * y) ^ 2 := by
      rw [fluxOf, Real.sq_sqrt (by positivity)]
      ring
    have hz : (c.mp.lq * r + c.mp.psiP) ^ 2 = c.mp.psiP ^ 2 + (c.mp.lq * y) ^ 2 := by
      simp only [polyVal, pmsmPoly, List.foldl_cons, List.foldl_nil, hL, hsq] at r1
      have h1 : c.mp.psiP ^ 2 * ((c.mp.lq * r + c.mp.psiP) ^ 2 - (c.mp.psiP ^ 2 + (c.mp.lq * y) ^ 2)) = 0 := by
        linear_combination r1
      rcases mul_eq_zero.mp h1 with h2 | h2
      · exact absurd h2 (by positivity)
      · linarith
    rw [hL] at hl r2
    have h0 : 0 < c.mp.lq * r + c.mp.psiP := by
      rw [div_lt_iff₀ hl] at r2
      linarith
    have h3 : 0 < (c.mp.lq * y) ^ 2 := by
      have : c.mp.lq * y ≠ 0 := mul_ne_zero hl.ne' hyn.ne
      positivity
    have h4 : c.mp.psiP < c.mp.lq * r + c.mp.psiP := by
      nlinarith
    have h5 : 0 < c.mp.lq * r := by linarith
    exact (mul_pos_iff_of_pos_left hl).mp h5
  refine ⟨y, ?_, ?_⟩
  · unfold selectOnline
    simp only [hidx, hat, hf, min_eq_left hmod, abs_zero]
    rw [if_neg (not_lt.mpr (abs_nonneg f.t))]
    simp only [pmsmSolve, hpos, if_true, not_lt.mpr hfd, if_false]
    have hi : invert c.mp = 1 := by
      unfold invert
      rw [if_neg]
      exact fun h => hpsi.ne' h.1
    rw [hi, one_mul]
  · rw [torqueOf_eq, hL, hy]
    field_simp
    ring

/-! ### Cases -/

/-- a table of three rows, and the torque 1/4 -/
example : let mp : SyncParams ℝ := ⟨2, 1, 1, 1, 1⟩
    let row : ℝ → Row := fun t => ⟨t, 0, t / (0 * (1 - 1) + 1) / (3 / 2 * 2), fluxOf mp 0 (t / (0 * (1 - 1) + 1) / (3 / 2 * 2))⟩
    let c : Sync := ⟨mp, [row (-1), row 0, row 1], [⟨5, -1, 2, 1⟩, ⟨5, -1, 2, 1⟩, ⟨5, -1, 2, 1⟩], 1, 1, 3, 2⟩
    Tabled c [] ∧ 0 < c.maxTorque ∧ 2 ≤ c.tCount ∧ |(1 / 4 : ℝ)| ≤ c.maxTorque ∧
      ∀ z : ℤ, (1 / 4 + c.maxTorque) / (2 * c.maxTorque) * (c.tCount - 1) ≠ z + 1 / 2 := by
  intro mp row c
  refine ⟨?_, by norm_num [c], by norm_num [c], by norm_num [c, abs_of_pos], ?_⟩
  · have hrow : ∀ t, mtpcRow mp [] t = some (row t) := by
      intro t
      simp [mtpcRow, mp, row]
    have hl : linspace (-c.maxTorque) c.maxTorque c.tCount = [-1, 0, 1] := by
      have : List.range 3 = [0, 1, 2] := rfl
      simp only [linspace, c, this, List.map_cons, List.map_nil]
      norm_num
    unfold Tabled
    rw [hl]
    exact .cons (hrow _) (.cons (hrow _) (.cons (hrow _) .nil))
  · intro z hz
    simp only [c] at hz
    norm_num at hz
    have h2 : ((4 * z : ℤ) : ℝ) = ((3 : ℤ) : ℝ) := by
      push_cast
      linarith
    have h3 : (4 * z : ℤ) = 3 := by exact_mod_cast h2
    omega

/-- the 250 rows of a motor with equal inductances; zeros of the polynomials -/
example : let mp : SyncParams ℝ := ⟨2, 1, 1, 1, 1⟩
    let row : ℝ → Row := fun t => ⟨t, 0, t / (0 * (1 - 1) + 1) / (3 / 2 * 2), fluxOf mp 0 (t / (0 * (1 - 1) + 1) / (3 / 2 * 2))⟩
    let c : Sync := ⟨mp, (linspace (-1) 1 250).map row, List.replicate 3 ⟨5, -1, 2, 1⟩, 1, 1, 250, 2⟩
    Tabled c [] ∧ (∀ psi : ℝ, 0 < psi → polyVal (pmsmPoly c.mp 0 psi) (psi - 1) = 0 ∧ -c.mp.psiP / c.mp.ld < psi - 1) ∧
      ∀ psi, at? c.mtpf (idxMtpf c.psiMaxMtpf c.psiCount psi) = .ok ⟨5, -1, 2, 1⟩ := by
  intro mp row c
  refine ⟨?_, ?_, ?_⟩
  · have hrow : ∀ t, mtpcRow mp [] t = some (row t) := by
      intro t
      simp [mtpcRow, mp, row]
    unfold Tabled
    simp only [c, List.forall₂_map_right_iff]
    exact List.forall₂_same.mpr fun t _ => hrow t
  · intro psi h
    constructor
    · simp [polyVal, pmsmPoly, c, mp]
      ring
    · simp only [c, mp]
      linarith
  · intro psi
    have h1 : 0 ≤ idxMtpf c.psiMaxMtpf c.psiCount psi ∧ idxMtpf c.psiMaxMtpf c.psiCount psi ≤ 2 := by
      unfold idxMtpf clip
      constructor
      · exact le_min (le_max_right _ _) (by simp [c])
      · exact min_le_right _ _
    obtain ⟨k, hk⟩ := Int.eq_ofNat_of_zero_le h1.1
    have hk2 : k < 3 := by omega
    rw [hk]
    simp only [at?, c]
    interval_cases k <;> rfl

end points

/-! ## Cases -/

/-- a PI current controller of a permanently excited motor, with feedforward, below torque and speed control -/
example : PermExControl (speedInner (torqueInner (fun _ u => u) (permExOps (1 / 2)) (.absolute (fun _ => -20) fun _ => 20)))
    ((⟨⟨.PI, ![2], ![10], ![0], 1 / 1000, ![0], some 0, 0⟩, .absolute (fun _ => -10) (fun _ => 10), 1 / 1000, ![0]⟩ : Speed 5 ℝ),
      ((), (⟨⟨.PI, ![3], ![40], ![0], 1 / 1000, ![2], some 0, 0⟩, some (emf 1 ![0] ![1 / 2] ![2] 0), .absolute (fun _ => -60) (fun _ => 60),
        1 / 1000, ![2], []⟩ : Current 1 5 ℝ))) := by
  refine .speed ⟨fun _ => .inr rfl, fun i => ?_, fun i => ?_, .inr ⟨1, ![0], ![1 / 2], ![2], 0, rfl, fun i => ?_⟩,
    _, _, rfl, fun _ => .inr ⟨rfl, rfl, by norm_num⟩⟩ ⟨.inr rfl, rfl⟩ (1 / 2) ⟨20, by norm_num, rfl⟩ ⟨rfl, rfl, ⟨10, by norm_num, rfl⟩, .inr rfl, rfl⟩
  · fin_cases i
    rfl
  · fin_cases i
    rfl
  · fin_cases i
    exact ⟨.inl rfl, .inr rfl⟩

/-- torque control of an externally excited motor with a positive range of the exciting current -/
example (mp : DcParams ℝ) : ExtExControl (-1) 1 (torqueInner (fun _ u => u) (extExOps mp 3) (.absolute ![-20, 0] ![20, 2]))
    ((), (⟨⟨.PI, ![3, 5], ![40, 7], ![0, 0], 1 / 1000, ![2, 3], some 0, 0⟩, some (emf 1 ![mp.lePrime, 0] ![0, 0] ![3, 2] 0),
      .absolute ![-60, 0] ![60, 20], 1 / 1000, ![2, 3], []⟩ : Current 2 7 ℝ)) fun _ => -1 := by
  refine .torque rfl rfl ⟨fun i => ?_, fun i => ?_, fun i => ?_, .inr ⟨1, _, _, _, 0, rfl, fun i => ?_⟩, _, _, rfl, fun i => ?_⟩ ⟨.inr rfl, rfl⟩ mp
    fun i => ?_
  · fin_cases i
    · exact .inr rfl
    · exact .inl rfl
  · fin_cases i <;> simp [extExSigns]
  · fin_cases i <;> simp [extExSigns]
  · fin_cases i
    · exact ⟨.inr (by simp [extExSigns]), .inl rfl⟩
    · exact ⟨.inl rfl, .inl rfl⟩
  · fin_cases i
    · exact .inr ⟨rfl, rfl, by simp⟩
    · exact .inl rfl
  · fin_cases i
    · exact .inr ⟨rfl, rfl, by simp⟩
    · exact .inl rfl

/-- current control of series and shunt motors -/
example (mp : DcParams ℝ) : DcParts ![1, 1, -1, -1, 1] (fun _ => -1) (⟨⟨.PI, ![3], ![40], ![0], 1 / 1000, ![2], some 0, 0⟩,
      some (emf 1 ![mp.lePrime] ![0] ![2] 0), .absolute (fun _ => -60) (fun _ => 60), 1 / 1000, ![2], []⟩ : Current 1 5 ℝ) ∧
    DcParts ![1, 1, -1, -1, -1, 1] (fun _ => -1) (⟨⟨.PI, ![3], ![40], ![0], 1 / 1000, ![2], some 0, 0⟩,
      some (emf 1 ![mp.lePrime] ![0] ![3] 0), .absolute (fun _ => -60) (fun _ => 60), 1 / 1000, ![2], []⟩ : Current 1 6 ℝ) := by
  refine ⟨⟨fun _ => .inr rfl, fun i => ?_, fun i => ?_, .inr ⟨1, _, _, _, 0, rfl, fun i => ?_⟩, _, _, rfl, fun _ => .inr ⟨rfl, rfl, by norm_num⟩⟩,
    ⟨fun _ => .inr rfl, fun i => ?_, fun i => ?_, .inr ⟨1, _, _, _, 0, rfl, fun i => ?_⟩, _, _, rfl, fun _ => .inr ⟨rfl, rfl, by norm_num⟩⟩⟩ <;>
    fin_cases i <;> simp

/-- current control of three-phase motors, with feedforward -/
example (mp : SyncParams ℝ) (ee : EesmParams ℝ) (im : ImParams ℝ) :
    SyncParts 0 5 6 (⟨⟨.PI, ![3, 4], ![40, 50], ![0, 0], 1 / 1000, ![5, 6], some 0, 0⟩,
      some (emf mp.p ![-mp.lq, mp.ld] ![0, mp.psiP] ![6, 5] 0), .squared ![60, 60] 0, 1 / 1000, ![5, 6], []⟩ : Current 2 14 ℝ) ∧
    EesmParts 0 5 6 7 (⟨⟨.PI, ![3, 4, 5], ![40, 50, 60], ![0, 0, 0], 1 / 1000, ![5, 6, 7], some 0, 0⟩, some (emfEesm ee 0 5 6 7),
      .combined ![true, true, false] ![60, 60, 20] ![-60, -60, 0] ![60, 60, 20] 0, 1 / 1000, ![5, 6, 7], []⟩ : Current 3 16 ℝ) ∧
    ScimParts 0 5 6 14 (⟨⟨.PI, ![3, 4], ![40, 50], ![0, 0], 1 / 1000, ![5, 6], some 0, 0⟩,
      some (fun s r => emfInd im (s 0) (s 5) (s 6) (s 14) r), .squared ![60, 60] 0, 1 / 1000, ![5, 6], []⟩ : Current 2 16 ℝ) :=
  ⟨⟨rfl, rfl, .inr ⟨_, _, _, _, rfl⟩, _, _, rfl⟩, ⟨rfl, rfl, .inr ⟨_, rfl⟩, _, _, _, _, rfl⟩, ⟨rfl, rfl, .inr ⟨_, rfl⟩, _, _, rfl⟩⟩

/-- the answer of a current controller in one direction, which is not 0 -/
example : ((currentInner fun _ u => u).control (⟨⟨.P, ![3], ![0], ![0], 1 / 1000, ![2], none, 0⟩, some (emf 1 ![0] ![1 / 2] ![2] 0),
    .absolute (fun _ => -60) (fun _ => 60), 1 / 1000, ![2], []⟩ : Current 1 5 ℝ) ![10, 1, 2, 0, 60] ![4]).2 = .ok ![11] := by
  change (Except.ok (emf 1 ![0] ![1 / 2] ![2] 0 ![10, 1, 2, 0, 60] fun i => ![3] i * (![4] i - ![10, 1, 2, 0, 60] (![2] i))) :
    Except Err (Fin 1 → ℝ)) = _
  congr 1
  funext i
  fin_cases i
  simp only [emf]
  change (3 : ℝ) * (4 - 2) + (0 * 2 + 1 / 2) * (10 * 1) = 11
  norm_num

end

end GEM.Props
