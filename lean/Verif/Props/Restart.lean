import Verif.Props.Reproducible

/-!
# C04: which modules forget their past
-/

set_option linter.unusedSectionVars false

namespace GEM.Props

noncomputable section

open GEM GEM.Sys GEM.Conv GEM.Refs GEM.Assembly GEM.Registry GEM.Seeding

/-! ## Converters -/

/-- half bridges without interlocking time, of which the switches are open, high or low -/
def TwoKin (d c : TwoQC ℝ) : Prop := c.tau = d.tau ∧ c.il = 0 ∧ c.state ≤ 2 ∧ ∀ s ∈ c.pattern, s ≤ 2

/-- ... that differ in the position of the switches only -/
def TwoNear (c c' : TwoQC ℝ) : Prop := c.il = 0 ∧ c' = { c with pattern := c'.pattern, state := c'.state }

/-- ... in the present position, but not in the intended one -/
def TwoArmed (c c' : TwoQC ℝ) : Prop := c' = { c with state := c'.state }

/-- bridges of the same kind -/
inductive Lift (O : OneQC ℝ → OneQC ℝ → Prop) (R : TwoQC ℝ → TwoQC ℝ → Prop) : FConv ℝ → FConv ℝ → Prop
  | one {c c' : OneQC ℝ} : O c c' → Lift O R (.one c) (.one c')
  | two {c c' : TwoQC ℝ} : R c c' → Lift O R (.two c) (.two c')
  | four {t : ℝ} {a a' b b' : TwoQC ℝ} : R a a' → R b b' → Lift O R (.four ⟨t, a, b⟩) (.four ⟨t, a', b'⟩)
  | b6 {t : ℝ} {a a' b b' c c' : TwoQC ℝ} : R a a' → R b b' → R c c' → Lift O R (.b6 ⟨t, a, b, c⟩) (.b6 ⟨t, a', b', c'⟩)

/-- finite converters with the sampling times of the first one, without interlocking time -/
def FKin : FConv ℝ → FConv ℝ → Prop := Lift (fun d c => c.tau = d.tau) TwoKin
def FNear : FConv ℝ → FConv ℝ → Prop := Lift Eq TwoNear
def FArmed : FConv ℝ → FConv ℝ → Prop := Lift Eq TwoArmed

theorem twoSet_kin {d c : TwoQC ℝ} (h : TwoKin d c) (a : ℕ) (t : ℝ) : TwoKin d (c.setAction a t).1 := by
  obtain ⟨h1, h2, h3, h4⟩ := h
  unfold TwoQC.setAction
  split
  · rw [if_pos (Or.inr (Or.inr (Or.inr h2)))]
    refine ⟨h1, h2, h3, ?_⟩
    simp only [List.mem_singleton, forall_eq]
    omega
  · exact ⟨h1, h2, h3, h4⟩

theorem twoConvert_kin {d c : TwoQC ℝ} (h : TwoKin d c) (i : List ℝ) (t : ℝ) : TwoKin d (c.convert i t).1 := by
  obtain ⟨h1, h2, h3, h4⟩ := h
  unfold TwoQC.convert
  split
  · exact ⟨h1, h2, h3, h4⟩
  · rename_i s hs
    refine ⟨h1, h2, ?_, h4⟩
    split at hs
    · exact h4 s (List.mem_of_getLast? hs)
    · exact h4 s (List.mem_of_head? hs)

theorem twoReset_kin {d c : TwoQC ℝ} (h : TwoKin d c) : TwoKin d c.reset.1 := h

theorem twoReset_near {d c c' : TwoQC ℝ} (h : TwoKin d c) (h' : TwoKin d c') : TwoNear c.reset.1 c'.reset.1 := by
  obtain ⟨h1, h2, -⟩ := h
  obtain ⟨h1', h2', -⟩ := h'
  refine ⟨h2, ?_⟩
  simp [TwoQC.reset, h1, h1', h2, h2']

theorem twoSet_near {c c' : TwoQC ℝ} (h : TwoNear c c') (a : ℕ) (t : ℝ) (d : TwoQC ℝ) (ts : List ℝ)
    (e : c.setAction a t = (d, .ok ts)) : ∃ d', c'.setAction a t = (d', .ok ts) ∧ TwoArmed d d' := by
  obtain ⟨h1, h2⟩ := h
  have h1' : c'.il = 0 := by rw [h2]; exact h1
  have ht : c'.tau = c.tau := by rw [h2]
  unfold TwoQC.setAction at e ⊢
  rw [if_pos (Or.inr (Or.inr (Or.inr h1)) : a = 0 ∨ c.state = 0 ∨ a = c.state ∨ c.il = 0)] at e
  rw [if_pos (Or.inr (Or.inr (Or.inr h1')) : a = 0 ∨ c'.state = 0 ∨ a = c'.state ∨ c'.il = 0)]
  split at e
  · rename_i ha
    rw [if_pos ha, ht]
    simp only [Prod.mk.injEq, Except.ok.injEq] at e
    obtain ⟨rfl, rfl⟩ := e
    refine ⟨_, rfl, ?_⟩
    simp [TwoArmed, ht, h1, h1']
  · simp at e

theorem twoConvert_armed {c c' : TwoQC ℝ} (h : TwoArmed c c') (i : List ℝ) (t : ℝ) (d : TwoQC ℝ) (u : List ℝ)
    (e : c.convert i t = (d, .ok u)) : c'.convert i t = (d, .ok u) := by
  rw [h]
  unfold TwoQC.convert at e ⊢
  dsimp only
  split at e
  · simp at e
  · rename_i s hs
    rw [hs]
    exact e

theorem twoSup_ok {d c : TwoQC ℝ} (h : TwoKin d c) (x : ℝ) (l : List ℝ) : ∃ w, c.iSup (x :: l) = .ok w := by
  obtain ⟨-, -, h3, -⟩ := h
  unfold TwoQC.iSup
  obtain h | h | h : c.state = 0 ∨ c.state = 1 ∨ c.state = 2 := by omega
  all_goals rw [h]; exact ⟨_, rfl⟩

theorem f_dim {O : OneQC ℝ → OneQC ℝ → Prop} {R : TwoQC ℝ → TwoQC ℝ → Prop} {c c' : FConv ℝ} (h : Lift O R c c') : c'.dim = c.dim := by
  cases h <;> rfl

theorem fSup_ok {d c : FConv ℝ} (h : FKin d c) {i : List ℝ} (hi : i.length = d.dim) : ∃ w, c.iSup i = .ok w := by
  cases h with
  | one h =>
    obtain ⟨x, rfl⟩ := List.length_eq_one_iff.1 hi
    simp only [FConv.iSup, OneQC.iSup]
    split <;> exact ⟨_, rfl⟩
  | two h =>
    obtain ⟨x, rfl⟩ := List.length_eq_one_iff.1 hi
    exact twoSup_ok h x []
  | four h1 h2 =>
    obtain ⟨x, rfl⟩ := List.length_eq_one_iff.1 hi
    obtain ⟨w1, e1⟩ := twoSup_ok h1 x []
    obtain ⟨w2, e2⟩ := twoSup_ok h2 (-x) []
    exact ⟨w1 + w2, by simp only [FConv.iSup, FourQC.iSup, e1, e2]⟩
  | b6 h1 h2 h3 =>
    obtain ⟨x, y, z, rfl⟩ := List.length_eq_three.1 hi
    obtain ⟨w1, e1⟩ := twoSup_ok h1 x []
    obtain ⟨w2, e2⟩ := twoSup_ok h2 y []
    obtain ⟨w3, e3⟩ := twoSup_ok h3 z []
    exact ⟨w1 + (w2 + (w3 + 0)), by simp only [FConv.iSup, B6.iSup, sumZip, e1, e2, e3]⟩

theorem f_forgets (d : FConv ℝ) : Forgetting finitePower (FKin d) FNear FArmed (fun _ => True) d.dim where
  set_kin c a t h := by
    cases h with
    | one h =>
      simp only [finitePower, FConv.setAction, OneQC.setAction]
      split <;> exact .one h
    | two h => exact .two (twoSet_kin h a t)
    | four h1 h2 =>
      simp only [finitePower, FConv.setAction, FourQC.setAction]
      split
      · generalize hr : TwoQC.setAction _ (fourAction0 a) t = r
        have k1 := twoSet_kin h1 (fourAction0 a) t
        rw [hr] at k1
        obtain ⟨c1, r1⟩ := r
        cases r1 with
        | error e => exact .four k1 h2
        | ok ts => exact .four k1 (twoSet_kin h2 _ t)
      · exact .four h1 h2
    | b6 h1 h2 h3 =>
      simp only [finitePower, FConv.setAction, B6.setAction]
      split
      · generalize hr : TwoQC.setAction _ (b6Sub a).1 t = r
        have k1 := twoSet_kin h1 (b6Sub a).1 t
        rw [hr] at k1
        obtain ⟨c1, r1⟩ := r
        cases r1 with
        | error e => exact .b6 k1 h2 h3
        | ok ts =>
          dsimp only
          generalize hr : TwoQC.setAction _ (b6Sub a).2.1 t = r
          have k2 := twoSet_kin h2 (b6Sub a).2.1 t
          rw [hr] at k2
          obtain ⟨c2, r2⟩ := r
          cases r2 with
          | error e => exact .b6 k1 k2 h3
          | ok ts => exact .b6 k1 k2 (twoSet_kin h3 _ t)
      · exact .b6 h1 h2 h3
  convert_kin c i t h := by
    cases h with
    | one h =>
      simp only [finitePower, FConv.convert, OneQC.convert]
      split <;> exact .one h
    | two h => exact .two (twoConvert_kin h i t)
    | four h1 h2 =>
      simp only [finitePower, FConv.convert, FourQC.convert]
      have k1 := twoConvert_kin h1 i t
      split
      · exact .four k1 (twoConvert_kin h2 _ t)
      · exact .four k1 h2
      · exact .four k1 h2
    | b6 h1 h2 h3 =>
      simp only [finitePower, FConv.convert, B6.convert]
      split
      · exact .b6 h1 h2 h3
      · rename_i x0 i1
        have k1 := twoConvert_kin h1 [x0] t
        split
        · rename_i u0 _ x1 i2 _
          have k2 := twoConvert_kin h2 [x1] t
          split
          · exact .b6 k1 k2 (twoConvert_kin h3 _ t)
          · exact .b6 k1 k2 h3
          · exact .b6 k1 k2 h3
        · exact .b6 k1 h2 h3
        · exact .b6 k1 h2 h3
  reset_kin c h := by
    cases h with
    | one h => exact .one h
    | two h => exact .two (twoReset_kin h)
    | four h1 h2 => exact .four (twoReset_kin h1) (twoReset_kin h2)
    | b6 h1 h2 h3 => exact .b6 (twoReset_kin h1) (twoReset_kin h2) (twoReset_kin h3)
  reset c c' h h' := by
    cases h with
    | one h =>
      cases h' with
      | one h' =>
        refine ⟨rfl, .one ?_⟩
        simp only [h, h']
    | two h =>
      cases h' with
      | two h' => exact ⟨rfl, .two (twoReset_near h h')⟩
    | four h1 h2 =>
      cases h' with
      | four h1' h2' => exact ⟨rfl, .four (twoReset_near h1 h1') (twoReset_near h2 h2')⟩
    | b6 h1 h2 h3 =>
      cases h' with
      | b6 h1' h2' h3' => exact ⟨rfl, .b6 (twoReset_near h1 h1') (twoReset_near h2 h2') (twoReset_near h3 h3')⟩
  set c c' a t d ts h _ e := by
    cases h with
    | one h =>
      subst h
      refine ⟨d, e, ?_⟩
      simp only [finitePower, FConv.setAction, OneQC.setAction] at e
      split at e
      · simp only [Prod.map, id, Prod.mk.injEq] at e
        obtain ⟨rfl, -⟩ := e
        exact .one rfl
      · simp at e
    | two h =>
      rename_i b b'
      simp only [finitePower, FConv.setAction] at e ⊢
      cases hs : b.setAction a t with
      | mk x r =>
        rw [hs] at e
        cases r with
        | error er => simp at e
        | ok ts' =>
          obtain ⟨x', hs', har⟩ := twoSet_near h a t x ts' hs
          rw [hs']
          simp only [Prod.map, id, Prod.mk.injEq] at e
          obtain ⟨rfl, e⟩ := e
          exact ⟨_, by rw [← e]; rfl, .two har⟩
    | @four tt p p' q q' h1 h2 =>
      simp only [finitePower, FConv.setAction, FourQC.setAction] at e ⊢
      split at e
      · rename_i hlt
        rw [if_pos hlt]
        cases hs : p.setAction (fourAction0 a) t with
        | mk x r =>
          rw [hs] at e
          cases r with
          | error er => simp at e
          | ok t0 =>
            obtain ⟨x', hs', har⟩ := twoSet_near h1 _ t x t0 hs
            rw [hs']
            dsimp only at e ⊢
            cases hq : q.setAction (fourAction1 a) t with
            | mk y r =>
              rw [hq] at e
              cases r with
              | error er => simp at e
              | ok t1 =>
                obtain ⟨y', hq', har'⟩ := twoSet_near h2 _ t y t1 hq
                rw [hq']
                simp only [Prod.map, id, Prod.mk.injEq] at e
                obtain ⟨rfl, e⟩ := e
                exact ⟨_, by rw [← e]; rfl, .four har har'⟩
      · simp at e
    | @b6 tt p p' q q' s s' h1 h2 h3 =>
      simp only [finitePower, FConv.setAction, B6.setAction] at e ⊢
      split at e
      · rename_i hlt
        rw [if_pos hlt]
        cases hs : p.setAction (b6Sub a).1 t with
        | mk x r =>
          rw [hs] at e
          cases r with
          | error er => simp at e
          | ok t0 =>
            obtain ⟨x', hs', har⟩ := twoSet_near h1 _ t x t0 hs
            rw [hs']
            dsimp only at e ⊢
            cases hq : q.setAction (b6Sub a).2.1 t with
            | mk y r =>
              rw [hq] at e
              cases r with
              | error er => simp at e
              | ok t1 =>
                obtain ⟨y', hq', har'⟩ := twoSet_near h2 _ t y t1 hq
                rw [hq']
                dsimp only at e ⊢
                cases hz : s.setAction (b6Sub a).2.2 t with
                | mk z r =>
                  rw [hz] at e
                  cases r with
                  | error er => simp at e
                  | ok t2 =>
                    obtain ⟨z', hz', har''⟩ := twoSet_near h3 _ t z t2 hz
                    rw [hz']
                    simp only [Prod.map, id, Prod.mk.injEq] at e
                    obtain ⟨rfl, e⟩ := e
                    exact ⟨_, by rw [← e]; rfl, .b6 har har' har''⟩
      · simp at e
  convert c c' i t d u h e := by
    cases h with
    | one h => subst h; exact e
    | two h =>
      rename_i b b'
      simp only [finitePower, FConv.convert] at e ⊢
      cases hs : b.convert i t with
      | mk x r =>
        rw [hs] at e
        cases r with
        | error er => simp at e
        | ok v =>
          rw [twoConvert_armed h i t x v hs]
          exact e
    | @four tt p p' q q' h1 h2 =>
      simp only [finitePower, FConv.convert, FourQC.convert] at e ⊢
      cases hs : p.convert i t with
      | mk x r =>
        rw [hs] at e
        cases r with
        | error er => simp at e
        | ok v =>
          rw [twoConvert_armed h1 i t x v hs]
          cases v with
          | nil => simp at e
          | cons u0 v =>
            cases i with
            | nil => simp at e
            | cons x0 i =>
              dsimp only at e ⊢
              cases hq : q.convert [-x0] t with
              | mk y r =>
                rw [hq] at e
                cases r with
                | error er => simp at e
                | ok v =>
                  rw [twoConvert_armed h2 _ t y v hq]
                  exact e
    | @b6 tt p p' q q' s s' h1 h2 h3 =>
      simp only [finitePower, FConv.convert, B6.convert] at e ⊢
      cases i with
      | nil => simp at e
      | cons x0 i =>
        dsimp only at e ⊢
        cases hs : p.convert [x0] t with
        | mk x r =>
          rw [hs] at e
          cases r with
          | error er => simp at e
          | ok v =>
            rw [twoConvert_armed h1 _ t x v hs]
            cases v with
            | nil => simp at e
            | cons u0 v =>
              cases i with
              | nil => simp at e
              | cons x1 i =>
                dsimp only at e ⊢
                cases hq : q.convert [x1] t with
                | mk y r =>
                  rw [hq] at e
                  cases r with
                  | error er => simp at e
                  | ok v =>
                    rw [twoConvert_armed h2 _ t y v hq]
                    cases v with
                    | nil => simp at e
                    | cons u1 v =>
                      cases i with
                      | nil => simp at e
                      | cons x2 i =>
                        dsimp only at e ⊢
                        cases hz : s.convert [x2] t with
                        | mk z r =>
                          rw [hz] at e
                          cases r with
                          | error er => simp at e
                          | ok v =>
                            rw [twoConvert_armed h3 _ t z v hz]
                            exact e
  iSup c i h hi := fSup_ok h hi

theorem fMulti_forgets (ds : List (FConv ℝ)) : Forgetting finiteMulti (List.Forall₂ FKin ds)
    (fun cs cs' => List.Forall₂ FNear cs cs' ∧ cs.length = ds.length) (List.Forall₂ FArmed) (fun a => a.length = ds.length)
    ((ds.map FConv.dim).sum) where
  set_kin cs as t h := by
    show List.Forall₂ FKin ds (multiSetActionAux cs as t).1
    induction h generalizing as with
    | nil => exact .nil
    | @cons d c ds cs h1 h2 ih =>
      cases as with
      | nil => exact .cons h1 h2
      | cons a as =>
        have k := (f_forgets d).set_kin c a t h1
        simp only [multiSetActionAux]
        generalize hr : c.setAction a t = r
        simp only [finitePower, hr] at k
        obtain ⟨c1, r1⟩ := r
        cases r1 with
        | error e => exact .cons k h2
        | ok ts => exact .cons k (ih as)
  convert_kin cs i t h := by
    show List.Forall₂ FKin ds (multiConvert cs i t).1
    induction h generalizing i with
    | nil => exact .nil
    | @cons d c ds cs h1 h2 ih =>
      have k := (f_forgets d).convert_kin c (i.take c.dim) t h1
      simp only [multiConvert]
      generalize hr : c.convert (i.take c.dim) t = r
      simp only [finitePower, hr] at k
      obtain ⟨c1, r1⟩ := r
      cases r1 with
      | error e => exact .cons k h2
      | ok ts => exact .cons k (ih _)
  reset_kin cs h := by
    show List.Forall₂ FKin ds (multiReset cs).1
    induction h with
    | nil => exact .nil
    | @cons d c ds cs h1 h2 ih => exact .cons ((f_forgets d).reset_kin c h1) ih
  reset cs cs' h h' := by
    show (multiReset cs).2 = (multiReset cs').2 ∧ List.Forall₂ FNear (multiReset cs).1 (multiReset cs').1 ∧
      (multiReset cs).1.length = ds.length
    induction h generalizing cs' with
    | nil =>
      cases h'
      exact ⟨rfl, .nil, rfl⟩
    | @cons d c ds cs h1 h2 ih =>
      cases h' with
      | @cons _ c' _ cs' h1' h2' =>
        obtain ⟨k1, k2⟩ := (f_forgets d).reset c c' h1 h1'
        obtain ⟨k3, k4, k5⟩ := ih cs' h2'
        simp only [finitePower] at k1 k2
        refine ⟨?_, .cons k2 k4, ?_⟩
        · simp only [Conv.multiReset, k1, k3]
        · simp only [Conv.multiReset, List.length_cons, k5]
  set cs cs' as t d ts h ha e := by
    obtain ⟨h, hl⟩ := h
    rw [← hl] at ha
    have key : ∀ (cs cs' : List (FConv ℝ)) (as : List ℕ) d ts, List.Forall₂ FNear cs cs' → as.length = cs.length →
        multiSetActionAux cs as t = (d, .ok ts) → ∃ d', multiSetActionAux cs' as t = (d', .ok ts) ∧ List.Forall₂ FArmed d d' := by
      intro cs cs' as d ts h ha e
      induction h generalizing as d ts with
      | nil =>
        simp only [multiSetActionAux, Prod.mk.injEq] at e
        obtain ⟨rfl, e⟩ := e
        exact ⟨[], by simp only [multiSetActionAux, e], .nil⟩
      | @cons c c' cs cs' h1 h2 ih =>
        cases as with
        | nil => simp at ha
        | cons a as =>
          simp only [List.length_cons, Nat.add_right_cancel_iff] at ha
          simp only [multiSetActionAux] at e ⊢
          cases hs : c.setAction a t with
          | mk x r =>
            rw [hs] at e
            cases r with
            | error er => simp at e
            | ok t0 =>
              obtain ⟨x', hs', har⟩ := (f_forgets c).set c c' a t x t0 h1 trivial hs
              simp only [finitePower] at hs'
              rw [hs']
              dsimp only at e ⊢
              cases hq : multiSetActionAux cs as t with
              | mk y r =>
                rw [hq] at e
                cases r with
                | error er => simp at e
                | ok t1 =>
                  obtain ⟨y', hq', har'⟩ := ih as y t1 ha hq
                  rw [hq']
                  simp only [Prod.mk.injEq] at e
                  obtain ⟨rfl, e⟩ := e
                  exact ⟨_, by rw [← e], .cons har har'⟩
    simp only [finiteMulti, multiSetAction] at e ⊢
    cases hs : multiSetActionAux cs as t with
    | mk x r =>
      rw [hs] at e
      cases r with
      | error er => simp at e
      | ok t0 =>
        obtain ⟨x', hs', har⟩ := key cs cs' as x t0 h ha hs
        rw [hs']
        simp only [Prod.mk.injEq] at e
        obtain ⟨rfl, e⟩ := e
        exact ⟨_, by rw [← e], har⟩
  convert cs cs' i t d u h e := by
    show multiConvert cs' i t = (d, .ok u)
    replace e : multiConvert cs i t = (d, .ok u) := e
    induction h generalizing i d u with
    | nil => exact e
    | @cons c c' cs cs' h1 h2 ih =>
      simp only [multiConvert] at e ⊢
      rw [f_dim h1]
      cases hs : c.convert (i.take c.dim) t with
      | mk x r =>
        rw [hs] at e
        cases r with
        | error er => simp at e
        | ok v =>
          have hs' := (f_forgets c).convert c c' (i.take c.dim) t x v h1 hs
          simp only [finitePower] at hs'
          rw [hs']
          dsimp only at e ⊢
          cases hq : multiConvert cs (i.drop c.dim) t with
          | mk y r =>
            rw [hq] at e
            cases r with
            | error er => simp at e
            | ok w =>
              rw [ih _ _ _ hq]
              exact e
  iSup cs i h hi := by
    show ∃ w, multiISup cs i = .ok w
    induction h generalizing i with
    | nil => exact ⟨0, rfl⟩
    | @cons d c ds cs h1 h2 ih =>
      simp only [List.map_cons, List.sum_cons] at hi
      obtain ⟨w1, e1⟩ := fSup_ok h1 (i := i.take c.dim) (by rw [List.length_take, f_dim h1]; omega)
      obtain ⟨w2, e2⟩ := ih (i := i.drop c.dim) (by rw [List.length_drop, f_dim h1]; omega)
      exact ⟨w1 + w2, by simp only [multiISup, e1, e2]⟩

/-! continuous converters -/

/-- continuous converters with the sampling and interlocking times of the first one -/
def CKin (d c : CConv ℝ) : Prop := c.reset.1 = d.reset.1

theorem cSet_reset (c : CConv ℝ) (a : List ℝ) (t : ℝ) : (c.setAction a t).1.reset = c.reset := by
  rcases c with c | c | c | c
  · simp only [CConv.setAction, COne.setAction]
    split <;> rfl
  · simp only [CConv.setAction, CTwo.setAction]
    split <;> rfl
  · simp only [CConv.setAction, CFour.setAction]
    split <;> rfl
  · simp only [CConv.setAction, CB6.setAction]
    split <;> rfl

theorem cReset_reset (c : CConv ℝ) : c.reset.1.reset = c.reset := by cases c <;> rfl

theorem cKin_dim {d c : CConv ℝ} (h : CKin d c) : c.dim = d.dim := by
  rcases c with c | c | c | c <;> rcases d with d | d | d | d <;> first | rfl | simp [CKin, CConv.reset] at h

theorem cKin_out {d c : CConv ℝ} (h : CKin d c) : c.reset.2 = d.reset.2 := by
  rcases c with c | c | c | c <;> rcases d with d | d | d | d <;> first | rfl | simp [CKin, CConv.reset] at h

theorem cSup_ok (c : CConv ℝ) {i : List ℝ} (hi : i.length = c.dim) : ∃ w, c.iSup i = .ok w := by
  rcases c with c | c | c | c
  · obtain ⟨x, rfl⟩ := List.length_eq_one_iff.1 hi
    exact ⟨_, rfl⟩
  · obtain ⟨x, rfl⟩ := List.length_eq_one_iff.1 hi
    exact ⟨_, rfl⟩
  · obtain ⟨x, rfl⟩ := List.length_eq_one_iff.1 hi
    exact ⟨_, rfl⟩
  · obtain ⟨x, y, z, rfl⟩ := List.length_eq_three.1 hi
    exact ⟨_, rfl⟩

theorem c_forgets (d : CConv ℝ) : Forgetting contPower (CKin d) Eq Eq (fun _ => True) d.dim where
  set_kin c a t h := by
    show (c.setAction a t).1.reset.1 = d.reset.1
    rw [cSet_reset, h]
  convert_kin c i t h := h
  reset_kin c h := by
    show c.reset.1.reset.1 = d.reset.1
    rw [cReset_reset, h]
  reset c c' h h' := ⟨(cKin_out h).trans (cKin_out h').symm, h.trans h'.symm⟩
  set c c' a t x ts h _ e := ⟨x, h ▸ e, rfl⟩
  convert c c' i t x u h e := h ▸ e
  iSup c i h hi := cSup_ok c (hi.trans (cKin_dim h).symm)

theorem cMulti_forgets (ds : List (CConv ℝ)) : Forgetting contMulti (List.Forall₂ CKin ds) Eq Eq (fun _ => True)
    ((ds.map CConv.dim).sum) where
  set_kin cs as t h := by
    show List.Forall₂ CKin ds (cMultiSetActionAux cs as t).1
    induction h generalizing as with
    | nil => exact .nil
    | @cons d c ds cs h1 h2 ih =>
      have k := (c_forgets d).set_kin c (as.take c.dim) t h1
      simp only [cMultiSetActionAux]
      generalize hr : c.setAction (as.take c.dim) t = r
      simp only [contPower, hr] at k
      obtain ⟨c1, r1⟩ := r
      cases r1 with
      | error e => exact .cons k h2
      | ok ts => exact .cons k (ih _)
  convert_kin c i t h := h
  reset_kin cs h := by
    show List.Forall₂ CKin ds (cMultiReset cs).1
    induction h with
    | nil => exact .nil
    | @cons d c ds cs h1 h2 ih => exact .cons ((c_forgets d).reset_kin c h1) ih
  reset cs cs' h h' := by
    show (cMultiReset cs).2 = (cMultiReset cs').2 ∧ (cMultiReset cs).1 = (cMultiReset cs').1
    induction h generalizing cs' with
    | nil =>
      cases h'
      exact ⟨rfl, rfl⟩
    | @cons d c ds cs h1 h2 ih =>
      cases h' with
      | @cons _ c' _ cs' h1' h2' =>
        obtain ⟨k1, k2⟩ := (c_forgets d).reset c c' h1 h1'
        obtain ⟨k3, k4⟩ := ih cs' h2'
        simp only [contPower] at k1 k2
        exact ⟨by simp only [cMultiReset, k1, k3], by simp only [cMultiReset, k2, k4]⟩
  set c c' a t x ts h _ e := ⟨x, h ▸ e, rfl⟩
  convert c c' i t x u h e := h ▸ e
  iSup cs i h hi := by
    show ∃ w, cMultiISup cs i = .ok w
    induction h generalizing i with
    | nil => exact ⟨0, rfl⟩
    | @cons d c ds cs h1 h2 ih =>
      simp only [List.map_cons, List.sum_cons] at hi
      obtain ⟨w1, e1⟩ := cSup_ok c (i := i.take c.dim) (by rw [List.length_take, cKin_dim h1]; omega)
      obtain ⟨w2, e2⟩ := ih (i := i.drop c.dim) (by rw [List.length_drop, cKin_dim h1]; omega)
      exact ⟨w1 + w2, by simp only [cMultiISup, e1, e2]⟩

/-! ## Solvers and supplies -/

section parts

variable {Y U A S C P : Type}

/-- Solvers that forget their past when they get initial values. -/
structure SolverRestarts (p : Parts ℝ Y U A S C P) (kin : S → Prop) : Prop where
  integrate : ∀ s u t, kin s → kin (p.integrate s u t)
  setInitial : ∀ s y t, kin s → kin (p.setInitial s y t)
  initial : ∀ s s' y, kin s → kin s' → p.setInitial s y 0 = p.setInitial s' y 0

/-- Supplies that forget their past when they are reset. -/
structure SupplyRestarts (p : Parts ℝ Y U A S C P) (kin still : P → Prop) : Prop where
  voltage : ∀ s t i, kin s → kin (p.getVoltage s t i).1
  reset : ∀ s, kin s → kin (p.supplyReset s).1
  supply : ∀ s s', kin s → kin s' → p.supplyReset s = p.supplyReset s'
  settles : ∀ s, kin s → still (p.supplyReset s).1
  begin : ∀ s i i', still s → p.getVoltage s 0 i = p.getVoltage s 0 i'

theorem restarts_of {p : Parts ℝ Y U A S C P} {kinS : S → Prop} {kinP still : P → Prop} (h : SolverRestarts p kinS)
    (h' : SupplyRestarts p kinP still) : Restarts p kinS kinP still :=
  ⟨h.integrate, h.setInitial, h.initial, h'.voltage, h'.reset, h'.supply, h'.settles, h'.begin⟩

/-- the supply of the system is an `IdealVoltageSupply` -/
def IdealFed (p : Parts ℝ Y U A S C Unit) (u : ℝ) : Prop :=
  p.getVoltage = (fun q t i => (q, Supply.idealVoltage u t i)) ∧ p.supplyReset = fun q => (q, Supply.idealVoltage u 0 0)

/-- ... an `RCVoltageSupply` -/
def RcFed (p : Parts ℝ Y U A S C (Supply.RC ℝ)) : Prop :=
  p.getVoltage = (fun q t i => ((q.getVoltage t i).1, [(q.getVoltage t i).2])) ∧ p.supplyReset = fun q => (q.reset.1, [q.reset.2])

/-- ... an AC supply with these voltages, `draw` being the result of `np.random.rand` -/
def AcFed (p : Parts ℝ Y U A S C Supply.AC) (get : Supply.AC → ℝ → List ℝ) (draw : Supply.AC → ℝ) : Prop :=
  p.getVoltage = (fun q t _ => (q, get q t)) ∧ p.supplyReset = fun q => q.reset get (draw q)

/-- the solver of the system is an `EulerSolver` on arrays `V` for the right-hand side `rhs` -/
def EulerDriven {V : Type} [AddCommGroup V] [Module ℝ V] (p : Parts ℝ Y U A (Solver.Euler ℝ V) C P) (toArr : Y → V)
    (rhs : U → ℝ → V → V) : Prop :=
  (p.setInitial = fun s y t => s.setInitialValue (toArr y) t) ∧ p.integrate = fun s u t => (s.integrate (rhs u) t).1

/-- C04 (components): Euler solvers, ideal supplies, RC supplies and AC supplies with a fixed phase forget their past.  The solvers of
scipy are not covered. -/
theorem c04_components_partial :
    (∀ {V : Type} [AddCommGroup V] [Module ℝ V] (p : Parts ℝ Y U A (Solver.Euler ℝ V) C P) (toArr : Y → V) (rhs : U → ℝ → V → V) (n : ℕ),
      EulerDriven p toArr rhs → SolverRestarts p fun s => s.nsteps = n) ∧
    (∀ (p : Parts ℝ Y U A S C Unit) (u : ℝ), IdealFed p u → SupplyRestarts p (fun _ => True) fun _ => True) ∧
    (∀ (p : Parts ℝ Y U A S C (Supply.RC ℝ)) (u r c : ℝ) (n : ℕ), RcFed p →
      SupplyRestarts p (fun q => q.u0 = u ∧ q.r = r ∧ q.c = c ∧ q.solver.nsteps = n) fun q => q.solver.t = 0) ∧
    ∀ (p : Parts ℝ Y U A S C Supply.AC) (get : Supply.AC → ℝ → List ℝ) (draw : Supply.AC → ℝ) (q : Supply.AC), q.fixed = true →
      AcFed p get draw → SupplyRestarts p (fun s => s = q) fun _ => True := by
  refine ⟨fun p toArr rhs n ⟨h1, h2⟩ => ⟨fun s u t h => ?_, fun s y t h => ?_, fun s s' y h h' => ?_⟩, fun p u ⟨h1, h2⟩ =>
    ⟨fun _ _ _ _ => trivial, fun _ _ => trivial, fun s s' _ _ => rfl, fun _ _ => trivial, fun s i i' _ => ?_⟩, fun p u r c n ⟨h1, h2⟩ =>
    ⟨fun s t i h => ?_, fun s h => ?_, fun s s' h h' => ?_, fun s h => ?_, fun s i i' h => ?_⟩, fun p get draw q hf ⟨h1, h2⟩ =>
    ⟨fun s t i h => ?_, fun s h => ?_, fun s s' h h' => ?_, fun s h => ?_, fun s i i' h => ?_⟩⟩
  · rw [h2]
    dsimp only
    unfold Solver.Euler.integrate
    split_ifs <;> exact h
  · rw [h1]
    exact h
  · rw [h1]
    dsimp only [Solver.Euler.setInitialValue]
    rw [h, h']
  · rw [h1]
    rfl
  · rw [h1]
    exact h
  · rw [h2]
    exact h
  · rw [h2]
    obtain ⟨a1, a2, a3, a4⟩ := h
    obtain ⟨b1, b2, b3, b4⟩ := h'
    simp only [Supply.RC.reset, Solver.Euler.setInitialValue, a1, a2, a3, a4, b1, b2, b3, b4]
  · rw [h2]
    rfl
  · rw [h1]
    dsimp only [Supply.RC.getVoltage, Solver.Euler.integrateOneStep]
    rw [h]
    simp
  · rw [h1]
    exact h
  · rw [h2]
    dsimp only [Supply.AC.reset]
    rw [h, if_pos hf]
  · rw [h2]
    subst h
    subst h'
    rfl
  · trivial
  · rw [h1]

end parts

/-! ## Reference generators -/

section references

variable {σ G : Type}

/-- `seed` for random components, nothing for others -/
def give (g : Seeded σ ℝ) (r : Stream) (x : Stream × σ) : Stream × σ := if g.random then g.reseed r x else x

/-- Attributes of one and the same object (`kin`); pairs of attributes that lead to the same behaviour after the next reset (`cold`),
from the next reference on (`warm`), from the next observation on (`hot`). -/
structure Memory (ρ : Type) where
  kin : ρ → Prop
  cold : ρ → ρ → Prop
  warm : ρ → ρ → Prop
  hot : ρ → ρ → Prop

/-- Classes of reference generators of which the objects forget their past when they are seeded. -/
structure Recallable (g : Seeded σ ℝ) (M : Memory (Stream × σ)) : Prop where
  seed_kin : ∀ r x, M.kin x → M.kin (give g r x)
  reset_kin : ∀ x s i, M.kin x → M.kin (g.obj.reset x s i).1
  ref_kin : ∀ x s, M.kin x → M.kin (g.obj.getRef x s).1
  obs_kin : ∀ x s, M.kin x → M.kin (g.obj.getObs x s).1
  seed : ∀ r x x', M.kin x → M.kin x' → M.cold (give g r x) (give g r x')
  reset : ∀ x x' s i d o, M.cold x x' → g.obj.reset x s i = (d, .ok o) → ∃ d', g.obj.reset x' s i = (d', .ok o) ∧ M.warm d d'
  getRef : ∀ x x' s d o, M.warm x x' → g.obj.getRef x s = (d, .ok o) → ∃ d', g.obj.getRef x' s = (d', .ok o) ∧ M.hot d d'
  getObs : ∀ x x' s d o, M.hot x x' → g.obj.getObs x s = (d, .ok o) → ∃ d', g.obj.getObs x' s = (d', .ok o) ∧ M.warm d d'
  warm_cold : ∀ x x', M.warm x x' → M.cold x x'
  hot_cold : ∀ x x', M.hot x x' → M.cold x x'

theorem recalls_of {g : Seeded σ ℝ} {M : Memory (Stream × σ)} (h : Recallable g M) :
    Recalls g.obj g.envSeed M.kin M.warm M.hot where
  seed_kin n x := h.seed_kin ⟨n, [1]⟩ x
  reset_kin := h.reset_kin
  ref_kin := h.ref_kin
  obs_kin := h.obs_kin
  reset n x x' s d o hx hx' := h.reset _ _ s none d o (h.seed ⟨n, [1]⟩ x x' hx hx')
  getRef := h.getRef
  getObs := h.getObs

/-! sub-episoded generators -/

def subMemory (margin : ℝ × ℝ) : Memory (Stream × SubSt G ℝ) where
  kin x := x.2.margin = margin
  cold x x' := x.1 = x'.1 ∧ x.2.margin = x'.2.margin ∧ x.2.gen = x'.2.gen ∧ x.2.spawned = x'.2.spawned
  warm := Eq
  hot := Eq

theorem newSub_margin (c : SubCfg G ℝ) (st : SubSt G ℝ) : (newSub c st).1.margin = st.margin := by
  unfold newSub
  dsimp only
  split
  · rfl
  · split <;> rfl

theorem nextValue_margin (st : SubSt G ℝ) : (nextValue st).1.margin = st.margin := by
  unfold nextValue
  split
  · rfl
  · split <;> rfl

theorem subObs_margin (c : SubCfg G ℝ) (st : SubSt G ℝ) : (subObs c st).1.margin = st.margin := by
  unfold subObs
  split
  · have h := newSub_margin c st
    generalize newSub c st = R at h
    obtain ⟨s1, r⟩ := R
    cases r with
    | error e => exact h
    | ok x => exact (nextValue_margin s1).trans h
  · exact nextValue_margin st

theorem subResetWith_margin (c : SubCfg G ℝ) (st : SubSt G ℝ) (i : Option (List ℝ)) : (subResetWith c st i).1.margin = st.margin := by
  have base : ∀ st : SubSt G ℝ, (baseReset (subRef c) (subObs c) st).1.margin = st.margin := by
    intro st
    have h := subObs_margin c st
    simp only [baseReset, subRef, Call.bind]
    generalize subObs c st = R at h
    obtain ⟨s1, r⟩ := R
    cases r <;> exact h
  unfold subResetWith
  split
  · rw [base]
  · split
    · rfl
    · rw [base]

theorem subReset_margin (c : SubCfg G ℝ) (st : SubSt G ℝ) (i : Option (List ℝ)) : (subReset c st i).1.margin = st.margin := by
  unfold subReset
  split
  · exact subResetWith_margin c _ _
  · exact subResetWith_margin c _ _

/-- What is left of the past after the reset of a sub-episode: nothing but margin, random generator and seed sequence. -/
theorem newSub_fresh (c : SubCfg G ℝ) (st st' : SubSt G ℝ) (h1 : st.margin = st'.margin) (h2 : st.gen = st'.gen)
    (h3 : st.spawned = st'.spawned) (h4 : st.value = st'.value) (d : SubSt G ℝ) (e : newSub c st = (d, .ok ())) :
    newSub c st' = (d, .ok ()) := by
  unfold newSub at e ⊢
  dsimp only at e ⊢
  rw [← h2]
  split at e
  · simp at e
  · rw [← h1, ← h3, ← h4]
    split at e
    · simp at e
    · exact e

theorem subResetWith_fresh (c : SubCfg G ℝ) (st st' : SubSt G ℝ) (i : Option (List ℝ)) (h1 : st.margin = st'.margin)
    (h3 : st.spawned = st'.spawned) (d : SubSt G ℝ) (o : List ℝ × List ℝ) (e : subResetWith c st i = (d, .ok o)) :
    subResetWith c st' i = (d, .ok o) := by
  have base : ∀ (st st' : SubSt G ℝ), st.margin = st'.margin → st.gen = st'.gen → st.spawned = st'.spawned → st.value = st'.value →
      st.len = -1 → st'.len = -1 → baseReset (subRef c) (subObs c) st = (d, .ok o) → baseReset (subRef c) (subObs c) st' = (d, .ok o) := by
    intro st st' a1 a2 a3 a4 a5 a6 e
    have q1 : subObs c st = (newSub c st).bind (fun st _ => nextValue st) := if_pos (by rw [a5]; omega)
    have q2 : subObs c st' = (newSub c st').bind (fun st _ => nextValue st) := if_pos (by rw [a6]; omega)
    simp only [baseReset, subRef, Call.bind, q1, q2] at e ⊢
    cases hn : newSub c st with
    | mk s1 r =>
      rw [hn] at e
      cases r with
      | error er => simp at e
      | ok u =>
        rw [newSub_fresh c st st' a1 a2 a3 a4 s1 hn, ← a4]
        exact e
  have last : ∀ v : ℝ, baseReset (subRef c) (subObs c) { st with value := v, gen := c.spawn st.spawned, spawned := st.spawned + 1, len := -1 } = (d, .ok o) →
      baseReset (subRef c) (subObs c) { st' with value := v, gen := c.spawn st'.spawned, spawned := st'.spawned + 1, len := -1 } = (d, .ok o) := by
    intro v e
    refine base { st with value := v, gen := c.spawn st.spawned, spawned := st.spawned + 1, len := -1 } _ h1 ?_ ?_ rfl rfl rfl e
    · show c.spawn st.spawned = c.spawn st'.spawned
      rw [h3]
    · show st.spawned + 1 = st'.spawned + 1
      rw [h3]
  unfold subResetWith at e ⊢
  cases i with
  | none => exact last 0 e
  | some a =>
    dsimp only at e ⊢
    cases hp : Refs.pick c.mask a with
    | error er =>
      rw [hp] at e
      simp at e
    | ok v =>
      rw [hp] at e
      exact last v e

/-- Sub-episoded generators forget their past when they are seeded. -/
theorem sub_recallable (rng : Stream → G) (c : SubCfg G ℝ) (margin : ℝ × ℝ) : Recallable (subSeeded rng c) (subMemory margin) where
  seed_kin r x h := h
  reset_kin x s i h := (subReset_margin _ _ _).trans h
  ref_kin x s h := h
  obs_kin x s h := (subObs_margin _ _).trans h
  seed r x x' h h' := ⟨rfl, h.trans h'.symm, rfl, rfl⟩
  reset x x' s i d o h e := by
    obtain ⟨r, x⟩ := x
    obtain ⟨r', x'⟩ := x'
    obtain ⟨h1, h2, h3, h4⟩ := h
    dsimp only at h1 h2 h3 h4
    subst h1
    refine ⟨d, ?_, rfl⟩
    simp only [Seeded.obj, subSeeded, subGen] at e ⊢
    generalize hc : ({ c with spawn := fun n => rng (child r n) } : SubCfg G ℝ) = c' at e ⊢
    have key : ∀ d o, subReset c' x i = (d, .ok o) → subReset c' x' i = (d, .ok o) := by
      intro d o e
      unfold subReset at e ⊢
      cases i with
      | some a => exact subResetWith_fresh c' _ _ _ h2 h4 d o e
      | none =>
        cases hi : c'.initial with
        | none =>
          rw [hi] at e
          exact subResetWith_fresh c' _ _ _ h2 h4 d o e
        | some draw =>
          rw [hi] at e
          dsimp only at e ⊢
          rw [← h3]
          exact subResetWith_fresh c' { x with gen := (draw x.gen).1 } { x' with gen := (draw x.gen).1 } _ h2 h4 d o e
    cases hr : subReset c' x i with
    | mk d1 r1 =>
      rw [hr] at e
      cases r1 with
      | error er => simp at e
      | ok o1 =>
        rw [key _ _ hr]
        exact e
  getRef x x' s d o h e := by
    cases h
    exact ⟨d, e, rfl⟩
  getObs x x' s d o h e := by
    cases h
    exact ⟨d, e, rfl⟩
  warm_cold x x' h := by
    cases h
    exact ⟨rfl, rfl, rfl, rfl⟩
  hot_cold x x' h := by
    cases h
    exact ⟨rfl, rfl, rfl, rfl⟩

/-- Generators without attributes have nothing to forget. -/
theorem plain_recallable (g : RefGen Unit ℝ) :
    Recallable (plainSeeded g) ⟨fun _ => True, fun _ _ => True, fun _ _ => True, fun _ _ => True⟩ where
  seed_kin _ _ _ := trivial
  reset_kin _ _ _ _ := trivial
  ref_kin _ _ _ := trivial
  obs_kin _ _ _ := trivial
  seed _ _ _ _ _ := trivial
  reset x x' s i d o _ e := ⟨(x'.1, ()), by
    simp only [Seeded.obj, plainSeeded, Prod.mk.injEq] at e ⊢
    exact ⟨trivial, e.2⟩, trivial⟩
  getRef x x' s d o _ e := ⟨(x'.1, ()), by
    simp only [Seeded.obj, plainSeeded, Prod.mk.injEq] at e ⊢
    exact ⟨trivial, e.2⟩, trivial⟩
  getObs x x' s d o _ e := ⟨(x'.1, ()), by
    simp only [Seeded.obj, plainSeeded, Prod.mk.injEq] at e ⊢
    exact ⟨trivial, e.2⟩, trivial⟩
  warm_cold _ _ _ := trivial
  hot_cold _ _ _ := trivial

/-! several generators -/

/-- a relation for every sub-generator -/
def Each {ρ : Type} (Q : Memory ρ → ρ → ρ → Prop) : List (Memory ρ) → List ρ → List ρ → Prop
  | [], [], [] => True
  | M :: Ms, x :: xs, y :: ys => Q M x y ∧ Each Q Ms xs ys
  | _, _, _ => False

def Akin {ρ : Type} : List (Memory ρ) → List ρ → Prop := List.Forall₂ fun M x => M.kin x

variable {gs : List (Seeded σ ℝ)} {Ms : List (Memory (Stream × σ))}

theorem seedSubs_kin (h : List.Forall₂ Recallable gs Ms) (r : Stream) (n : ℕ) (xs : List (Stream × σ)) (hx : Akin Ms xs) :
    Akin Ms (seedSubs gs r n xs) := by
  induction h generalizing n xs with
  | nil => cases hx; exact .nil
  | @cons g M gs Ms h1 h2 ih =>
    cases hx with
    | @cons _ x _ xs k1 k2 =>
      have := h1.seed_kin (child r n) x k1
      unfold give at this
      simp only [seedSubs]
      split
      · rename_i hr
        rw [if_pos hr] at this
        exact .cons this (ih _ _ k2)
      · exact .cons k1 (ih _ _ k2)

theorem seedSubs_cold (h : List.Forall₂ Recallable gs Ms) (r : Stream) (n : ℕ) (xs xs' : List (Stream × σ)) (hx : Akin Ms xs)
    (hx' : Akin Ms xs') : Each Memory.cold Ms (seedSubs gs r n xs) (seedSubs gs r n xs') := by
  induction h generalizing n xs xs' with
  | nil => cases hx; cases hx'; trivial
  | @cons g M gs Ms h1 h2 ih =>
    cases hx with
    | @cons _ x _ xs k1 k2 =>
      cases hx' with
      | @cons _ x' _ xs' k1' k2' =>
        have := h1.seed (child r n) x x' k1 k1'
        unfold give at this
        simp only [seedSubs]
        split
        · rename_i hr
          rw [if_pos hr, if_pos hr] at this
          exact ⟨this, ih _ _ _ k2 k2'⟩
        · rename_i hr
          rw [if_neg hr, if_neg hr] at this
          exact ⟨this, ih _ _ _ k2 k2'⟩

theorem each_kin {α : Type} {m : RefGen (Stream × σ) ℝ → Stream × σ → Call (Stream × σ) α}
    (hm : ∀ (g : Seeded σ ℝ) M x, Recallable g M → M.kin x → M.kin (m g.obj x).1) (h : List.Forall₂ Recallable gs Ms)
    (xs : List (Stream × σ)) (hx : Akin Ms xs) : Akin Ms (each m (gs.map Seeded.obj) xs).1 := by
  induction h generalizing xs with
  | nil => cases hx; exact .nil
  | @cons g M gs Ms h1 h2 ih =>
    cases hx with
    | @cons _ x _ xs k1 k2 =>
      have k := hm g M x h1 k1
      simp only [List.map_cons, each]
      generalize m g.obj x = R at k
      obtain ⟨x1, r⟩ := R
      cases r with
      | error e => exact .cons k k2
      | ok a => exact .cons k (ih _ k2)

theorem each_same {α : Type} {m : RefGen (Stream × σ) ℝ → Stream × σ → Call (Stream × σ) α}
    {Q Q' : Memory (Stream × σ) → Stream × σ → Stream × σ → Prop}
    (hm : ∀ (g : Seeded σ ℝ) M x x' d o, Recallable g M → Q M x x' → m g.obj x = (d, .ok o) → ∃ d', m g.obj x' = (d', .ok o) ∧ Q' M d d')
    (h : List.Forall₂ Recallable gs Ms) (xs xs' : List (Stream × σ)) (hx : Each Q Ms xs xs') (ds : List (Stream × σ)) (os : List α)
    (e : each m (gs.map Seeded.obj) xs = (ds, .ok os)) :
    ∃ ds', each m (gs.map Seeded.obj) xs' = (ds', .ok os) ∧ Each Q' Ms ds ds' := by
  induction h generalizing xs xs' ds os with
  | nil =>
    cases xs with
    | nil =>
      cases xs' with
      | nil =>
        simp only [List.map_nil, each, Prod.mk.injEq, Except.ok.injEq] at e ⊢
        obtain ⟨rfl, rfl⟩ := e
        exact ⟨[], ⟨rfl, rfl⟩, trivial⟩
      | cons x xs' => exact hx.elim
    | cons x xs => exact hx.elim
  | @cons g M gs Ms h1 h2 ih =>
    cases xs with
    | nil => exact hx.elim
    | cons x xs =>
      cases xs' with
      | nil => exact hx.elim
      | cons x' xs' =>
        obtain ⟨k1, k2⟩ := hx
        simp only [List.map_cons, each] at e ⊢
        cases hr : m g.obj x with
        | mk x1 r =>
          rw [hr] at e
          cases r with
          | error er => simp at e
          | ok a =>
            obtain ⟨d', hd', hq⟩ := hm g M x x' x1 a h1 k1 hr
            rw [hd']
            dsimp only at e ⊢
            cases hs : each m (gs.map Seeded.obj) xs with
            | mk ys r =>
              rw [hs] at e
              cases r with
              | error er => simp [Except.map] at e
              | ok as =>
                obtain ⟨ys', hs', hq'⟩ := ih xs xs' k2 ys as hs
                rw [hs']
                simp only [Except.map, Prod.mk.injEq, Except.ok.injEq] at e ⊢
                obtain ⟨rfl, rfl⟩ := e
                exact ⟨_, ⟨rfl, rfl⟩, hq, hq'⟩

theorem each_mono {ρ : Type} {Q Q' : Memory ρ → ρ → ρ → Prop} {Ms : List (Memory ρ)} (h : ∀ M ∈ Ms, ∀ x x', Q M x x' → Q' M x x')
    (xs xs' : List ρ) (hx : Each Q Ms xs xs') : Each Q' Ms xs xs' := by
  induction Ms generalizing xs xs' with
  | nil =>
    cases xs with
    | nil =>
      cases xs' with
      | nil => trivial
      | cons x xs' => exact hx.elim
    | cons x xs => exact hx.elim
  | cons M Ms ih =>
    cases xs with
    | nil => exact hx.elim
    | cons x xs =>
      cases xs' with
      | nil => exact hx.elim
      | cons x' xs' =>
        exact ⟨h M (List.mem_cons_self ..) _ _ hx.1, ih (fun M hM => h M (List.mem_cons_of_mem _ hM)) _ _ hx.2⟩

theorem mem_recallable (h : List.Forall₂ Recallable gs Ms) : ∀ M ∈ Ms, ∃ g, Recallable g M := by
  induction h with
  | nil => simp
  | @cons g M gs Ms h1 h2 ih =>
    intro M' hM
    rcases List.mem_cons.1 hM with rfl | hM
    · exact ⟨g, h1⟩
    · exact ih M' hM

def multiMemory (Ms : List (Memory (Stream × σ))) : Memory (Stream × List (Stream × σ)) where
  kin x := Akin Ms x.2
  cold x x' := Each Memory.cold Ms x.2 x'.2
  warm x x' := Each Memory.warm Ms x.2 x'.2
  hot x x' := Each Memory.hot Ms x.2 x'.2

theorem multiSeeded_ok {n : ℕ} {M : Seeded (List (Stream × σ)) ℝ} (h : multiSeeded n gs = .ok M) :
    M.random = true ∧ M.seed = (fun r xs => seedSubs gs r 1 xs) ∧ ∀ r, (M.gen r).reset = Refs.multiReset n (gs.map Seeded.obj) ∧
      (M.gen r).getRef = multiRef (gs.map Seeded.obj) ∧ (M.gen r).getObs = multiObs (gs.map Seeded.obj) := by
  unfold multiSeeded multiGen at h
  cases hm : multiMask n (gs.map Seeded.obj) with
  | error e => simp [hm, Except.map] at h
  | ok mm =>
    simp only [hm, Except.map, Except.ok.injEq] at h
    subst h
    exact ⟨rfl, rfl, fun r => ⟨rfl, rfl, rfl⟩⟩

/-- Multiple generators forget if their sub-generators do. -/
theorem multi_recallable {n : ℕ} {S : Seeded (List (Stream × σ)) ℝ} (hS : multiSeeded n gs = .ok S)
    (h : List.Forall₂ Recallable gs Ms) : Recallable S (multiMemory Ms) := by
  obtain ⟨s1, s2, s3⟩ := multiSeeded_ok hS
  refine ⟨fun r x hx => ?_, fun x s i hx => ?_, fun x s hx => ?_, fun x s hx => ?_, fun r x x' hx hx' => ?_, fun x x' s i d o hx e => ?_,
    fun x x' s d o hx e => ?_, fun x x' s d o hx e => ?_, fun x x' hx => ?_, fun x x' hx => ?_⟩
  · simp only [give, s1, if_true, Seeded.reseed, s2]
    exact seedSubs_kin h r 1 _ hx
  · simp only [Seeded.obj, s3]
    exact each_kin (fun g M x hg hx => hg.reset_kin x s i hx) h _ hx
  · simp only [Seeded.obj, s3]
    exact each_kin (m := fun g t => g.getRef t s) (fun g M x hg hx => hg.ref_kin x s hx) h _ hx
  · simp only [Seeded.obj, s3]
    exact each_kin (m := fun g t => g.getObs t s) (fun g M x hg hx => hg.obs_kin x s hx) h _ hx
  · simp only [give, s1, if_true, Seeded.reseed, s2]
    exact seedSubs_cold h r 1 _ _ hx hx'
  · simp only [Seeded.obj, s3, Refs.multiReset] at e ⊢
    cases he : each (fun g t => g.reset t s i) (gs.map Seeded.obj) x.2 with
    | mk ds r =>
      rw [he] at e
      cases r with
      | error er => simp [Except.bind] at e
      | ok os =>
        obtain ⟨ds', he', hq⟩ := each_same (Q := Memory.cold) (Q' := Memory.warm) (fun g M x x' d o hg => hg.reset x x' s i d o) h x.2 x'.2 hx ds os he
        rw [he']
        simp only [Prod.mk.injEq] at e ⊢
        obtain ⟨rfl, e⟩ := e
        exact ⟨_, ⟨rfl, e⟩, hq⟩
  · simp only [Seeded.obj, s3, multiRef] at e ⊢
    cases he : each (fun g t => g.getRef t s) (gs.map Seeded.obj) x.2 with
    | mk ds r =>
      rw [he] at e
      cases r with
      | error er => simp [Except.bind] at e
      | ok os =>
        obtain ⟨ds', he', hq⟩ := each_same (Q := Memory.warm) (Q' := Memory.hot) (fun g M x x' d o hg => hg.getRef x x' s d o) h x.2 x'.2 hx ds os he
        rw [he']
        simp only [Prod.mk.injEq] at e ⊢
        obtain ⟨rfl, e⟩ := e
        exact ⟨_, ⟨rfl, e⟩, hq⟩
  · simp only [Seeded.obj, s3, multiObs] at e ⊢
    cases he : each (fun g t => g.getObs t s) (gs.map Seeded.obj) x.2 with
    | mk ds r =>
      rw [he] at e
      cases r with
      | error er => simp [Except.bind] at e
      | ok os =>
        obtain ⟨ds', he', hq⟩ := each_same (Q := Memory.hot) (Q' := Memory.warm) (fun g M x x' d o hg => hg.getObs x x' s d o) h x.2 x'.2 hx ds os he
        rw [he']
        simp only [Prod.mk.injEq] at e ⊢
        obtain ⟨rfl, e⟩ := e
        exact ⟨_, ⟨rfl, e⟩, hq⟩
  · exact each_mono (fun M hM x x' h' => (mem_recallable h M hM).elim fun g hg => hg.warm_cold x x' h') _ _ hx
  · exact each_mono (fun M hM x x' h' => (mem_recallable h M hM).elim fun g hg => hg.hot_cold x x' h') _ _ hx

/-! switched generators -/

/-- The present sub-generators are in this relation. -/
def AtCur {ρ : Type} (Q : Memory ρ → ρ → ρ → Prop) (Ms : List (Memory ρ)) (k : ℕ) (xs xs' : List ρ) : Prop :=
  ∀ M x x', Ms[k]? = some M → xs[k]? = some x → xs'[k]? = some x' → Q M x x'

def swMemory (Ms : List (Memory (Stream × σ))) : Memory (Stream × SwSt G (Stream × σ) ℝ) where
  kin x := Akin Ms x.2.subs
  cold x x' := x.1 = x'.1 ∧ Each Memory.cold Ms x.2.subs x'.2.subs ∧ x.2.gen = x'.2.gen ∧ x.2.spawned = x'.2.spawned
  warm x x' := x.1 = x'.1 ∧ Each Memory.cold Ms x.2.subs x'.2.subs ∧ x.2.gen = x'.2.gen ∧ x.2.spawned = x'.2.spawned ∧
    x.2.k = x'.2.k ∧ x.2.len = x'.2.len ∧ x.2.cur = x'.2.cur ∧ AtCur Memory.warm Ms x.2.cur x.2.subs x'.2.subs
  hot x x' := x.1 = x'.1 ∧ Each Memory.cold Ms x.2.subs x'.2.subs ∧ x.2.gen = x'.2.gen ∧ x.2.spawned = x'.2.spawned ∧
    x.2.k = x'.2.k ∧ x.2.len = x'.2.len ∧ x.2.cur = x'.2.cur ∧ x.2.reference = x'.2.reference ∧
    AtCur Memory.hot Ms x.2.cur x.2.subs x'.2.subs

theorem each_at {ρ : Type} {Q : Memory ρ → ρ → ρ → Prop} {Ms : List (Memory ρ)} {xs xs' : List ρ} (h : Each Q Ms xs xs') {k : ℕ} {x : ρ}
    (hx : xs[k]? = some x) : ∃ M x', Ms[k]? = some M ∧ xs'[k]? = some x' ∧ Q M x x' := by
  induction Ms generalizing xs xs' k with
  | nil =>
    cases xs with
    | nil => simp at hx
    | cons y ys => cases xs' <;> exact h.elim
  | cons M Ms ih =>
    cases xs with
    | nil => exact h.elim
    | cons y ys =>
      cases xs' with
      | nil => exact h.elim
      | cons y' ys' =>
        cases k with
        | zero =>
          simp only [List.getElem?_cons_zero, Option.some.injEq] at hx
          subst hx
          exact ⟨M, y', rfl, rfl, h.1⟩
        | succ k =>
          simp only [List.getElem?_cons_succ] at hx ⊢
          exact ih h.2 hx

theorem each_set {ρ : Type} {Q : Memory ρ → ρ → ρ → Prop} {Ms : List (Memory ρ)} {xs xs' : List ρ} (h : Each Q Ms xs xs') {k : ℕ}
    {M : Memory ρ} (hM : Ms[k]? = some M) {y y' : ρ} (hy : Q M y y') : Each Q Ms (xs.set k y) (xs'.set k y') := by
  induction Ms generalizing xs xs' k with
  | nil => simp at hM
  | cons M' Ms ih =>
    cases xs with
    | nil => exact h.elim
    | cons z zs =>
      cases xs' with
      | nil => exact h.elim
      | cons z' zs' =>
        cases k with
        | zero =>
          simp only [List.getElem?_cons_zero, Option.some.injEq] at hM
          subst hM
          exact ⟨hy, h.2⟩
        | succ k =>
          simp only [List.getElem?_cons_succ] at hM
          exact ⟨h.1, ih h.2 hM⟩

theorem atCur_set {ρ : Type} {Q : Memory ρ → ρ → ρ → Prop} {Ms : List (Memory ρ)} {xs xs' : List ρ} {k : ℕ}
    {M : Memory ρ} (hM : Ms[k]? = some M) {y y' : ρ} (hy : Q M y y') : AtCur Q Ms k (xs.set k y) (xs'.set k y') := by
  intro M' z z' h1 h2 h3
  rw [hM, Option.some.injEq] at h1
  subst h1
  rw [List.getElem?_set] at h2 h3
  simp only [if_true] at h2 h3
  split at h2
  · split at h3
    · simp only [Option.some.injEq] at h2 h3
      subst h2
      subst h3
      exact hy
    · simp at h3
  · simp at h2

theorem akin_set {ρ : Type} {Ms : List (Memory ρ)} {xs : List ρ} (h : Akin Ms xs) {k : ℕ} {y : ρ} (hy : ∀ M, Ms[k]? = some M → M.kin y) :
    Akin Ms (xs.set k y) := by
  induction h generalizing k with
  | nil => exact .nil
  | @cons M x Ms xs h1 h2 ih =>
    cases k with
    | zero => exact .cons (hy M rfl) h2
    | succ k => exact .cons h1 (ih fun M hM => hy M (by simpa using hM))

theorem akin_at {ρ : Type} {Ms : List (Memory ρ)} {xs : List ρ} (h : Akin Ms xs) {k : ℕ} {x : ρ} (hx : xs[k]? = some x) {M : Memory ρ}
    (hM : Ms[k]? = some M) : M.kin x := by
  induction h generalizing k with
  | nil => simp at hx
  | @cons M' x' Ms xs h1 h2 ih =>
    cases k with
    | zero =>
      simp only [List.getElem?_cons_zero, Option.some.injEq] at hx hM
      subst hx
      subst hM
      exact h1
    | succ k =>
      simp only [List.getElem?_cons_succ] at hx hM
      exact ih hx hM

theorem recallable_at (h : List.Forall₂ Recallable gs Ms) {k : ℕ} {g : Seeded σ ℝ} (hg : gs[k]? = some g) {M : Memory (Stream × σ)}
    (hM : Ms[k]? = some M) : Recallable g M := by
  induction h generalizing k with
  | nil => simp at hg
  | @cons g' M' gs Ms h1 h2 ih =>
    cases k with
    | zero =>
      simp only [List.getElem?_cons_zero, Option.some.injEq] at hg hM
      subst hg
      subst hM
      exact h1
    | succ k =>
      simp only [List.getElem?_cons_succ] at hg hM
      exact ih hg hM

theorem onCurrent_kin {α : Type} {c : SwCfg G (Stream × σ) ℝ} (hc : c.gens = gs.map Seeded.obj)
    {m : RefGen (Stream × σ) ℝ → Stream × σ → Call (Stream × σ) α}
    (hm : ∀ (g : Seeded σ ℝ) M x, Recallable g M → M.kin x → M.kin (m g.obj x).1) (h : List.Forall₂ Recallable gs Ms)
    (st : SwSt G (Stream × σ) ℝ) (hx : Akin Ms st.subs) : Akin Ms (onCurrent c st m).1.subs := by
  unfold onCurrent
  split
  · rename_i g x hg hs
    rw [hc, List.getElem?_map, Option.map_eq_some_iff] at hg
    obtain ⟨g, hg, rfl⟩ := hg
    exact akin_set hx fun M hM => hm g M x (recallable_at h hg hM) (akin_at hx hs hM)
  · exact hx

/-- A call of the present sub-generator. -/
theorem onCurrent_same {α : Type} {c : SwCfg G (Stream × σ) ℝ} (hc : c.gens = gs.map Seeded.obj)
    {m : RefGen (Stream × σ) ℝ → Stream × σ → Call (Stream × σ) α} {Q Q' : Memory (Stream × σ) → Stream × σ → Stream × σ → Prop}
    (hm : ∀ (g : Seeded σ ℝ) M x x' d o, Recallable g M → Q M x x' → m g.obj x = (d, .ok o) → ∃ d', m g.obj x' = (d', .ok o) ∧ Q' M d d')
    (hcold : ∀ (g : Seeded σ ℝ) M x x', Recallable g M → Q' M x x' → M.cold x x')
    (h : List.Forall₂ Recallable gs Ms) (st st' : SwSt G (Stream × σ) ℝ) (hs : Each Memory.cold Ms st.subs st'.subs)
    (hk : st.cur = st'.cur) (hq : AtCur Q Ms st.cur st.subs st'.subs) (d : SwSt G (Stream × σ) ℝ) (o : α)
    (e : onCurrent c st m = (d, .ok o)) :
    ∃ subs', onCurrent c st' m = ({ st' with subs := subs' }, .ok o) ∧ d = { st with subs := d.subs } ∧
      Each Memory.cold Ms d.subs subs' ∧ AtCur Q' Ms d.cur d.subs subs' := by
  unfold onCurrent at e ⊢
  rw [← hk]
  split at e
  · rename_i g x hg hx
    obtain ⟨M, x', hM, hx', -⟩ := each_at hs hx
    rw [hg, hx']
    rw [hc, List.getElem?_map, Option.map_eq_some_iff] at hg
    obtain ⟨g, hg, rfl⟩ := hg
    simp only [Prod.mk.injEq] at e
    obtain ⟨rfl, e⟩ := e
    cases hr : m g.obj x with
    | mk d1 r =>
      rw [hr] at e
      dsimp only at e
      subst e
      have hgM := recallable_at h hg hM
      obtain ⟨d', hd', hq'⟩ := hm g M x x' d1 o hgM (hq M x x' hM hx hx') hr
      dsimp only
      rw [hd']
      exact ⟨_, rfl, rfl, each_set hs hM (hcold g M _ _ hgM hq'), atCur_set hM hq'⟩
  · simp at e

theorem switchedSeeded_ok {rng : Stream → G} {integers : G → G × ℤ} {choice : G → G × ℕ} {S : Seeded (SwSt G (Stream × σ) ℝ) ℝ}
    (h : switchedSeeded rng gs integers choice = .ok S) :
    S.random = true ∧ (S.seed = fun r st => { st with subs := seedSubs gs r 1 st.subs, gen := rng (child r 0), spawned := 1 + randoms gs }) ∧
      ∀ r, (S.gen r).reset = swReset ⟨gs.map Seeded.obj, integers, choice, fun n => rng (child r n)⟩ ∧
        (S.gen r).getRef = swRef ⟨gs.map Seeded.obj, integers, choice, fun n => rng (child r n)⟩ ∧
        (S.gen r).getObs = swObs ⟨gs.map Seeded.obj, integers, choice, fun n => rng (child r n)⟩ := by
  unfold switchedSeeded at h
  split at h
  · simp at h
  · simp only [Except.ok.injEq] at h
    subst h
    exact ⟨rfl, rfl, fun r => ⟨rfl, rfl, rfl⟩⟩

/-- Switched generators forget if their sub-generators do. -/
theorem switched_recallable {rng : Stream → G} {integers : G → G × ℤ} {choice : G → G × ℕ} {S : Seeded (SwSt G (Stream × σ) ℝ) ℝ}
    (hS : switchedSeeded rng gs integers choice = .ok S) (h : List.Forall₂ Recallable gs Ms) : Recallable S (swMemory Ms) := by
  obtain ⟨s1, s2, s3⟩ := switchedSeeded_ok hS
  refine ⟨fun r x hx => ?_, fun x s i hx => ?_, fun x s hx => ?_, fun x s hx => ?_, fun r x x' hx hx' => ?_, fun x x' s i d o hx e => ?_,
    fun x x' s d o hx e => ?_, fun x x' s d o hx e => ?_, fun x x' hx => ?_, fun x x' hx => ?_⟩
  · simp only [give, s1, if_true, Seeded.reseed, s2]
    exact seedSubs_kin h r 1 _ hx
  · simp only [Seeded.obj, s3]
    exact onCurrent_kin rfl (fun g M x hg hx => hg.reset_kin x s i hx) h _ hx
  · simp only [Seeded.obj, s3, swRef]
    have := onCurrent_kin (c := ⟨gs.map Seeded.obj, integers, choice, fun n => rng (child x.1 n)⟩) rfl
      (m := fun g t => g.getRef t s) (fun g M x hg hx => hg.ref_kin x s hx) h x.2 hx
    generalize onCurrent _ x.2 _ = R at this
    obtain ⟨x1, r⟩ := R
    cases r <;> exact this
  · simp only [Seeded.obj, s3, swObs]
    have k1 := onCurrent_kin (c := ⟨gs.map Seeded.obj, integers, choice, fun n => rng (child x.1 n)⟩) rfl
      (m := fun g t => g.getObs t s) (fun g M x hg hx => hg.obs_kin x s hx) h x.2 hx
    have k2 := onCurrent_kin (c := ⟨gs.map Seeded.obj, integers, choice, fun n => rng (child x.1 n)⟩) rfl
      (m := fun g t => g.reset t s x.2.reference) (fun g M y hg hx => hg.reset_kin y s x.2.reference hx) h
      (swNew ⟨gs.map Seeded.obj, integers, choice, fun n => rng (child x.1 n)⟩ x.2) hx
    split
    · generalize onCurrent _ (swNew _ x.2) _ = R at k2
      obtain ⟨x1, r⟩ := R
      cases r <;> exact k2
    · generalize onCurrent _ x.2 _ = R at k1
      obtain ⟨x1, r⟩ := R
      cases r <;> exact k1
  · simp only [give, s1, if_true, Seeded.reseed, s2]
    exact ⟨rfl, seedSubs_cold h r 1 _ _ hx hx', rfl, rfl⟩
  · obtain ⟨r, x⟩ := x
    obtain ⟨r', x'⟩ := x'
    obtain ⟨h1, h2, h3, h4⟩ := hx
    dsimp only at h1 h2 h3 h4
    subst h1
    simp only [Seeded.obj, s3, swReset] at e ⊢
    generalize hcc : (⟨gs.map Seeded.obj, integers, choice, fun n => rng (child r n)⟩ : SwCfg G (Stream × σ) ℝ) = c at e ⊢
    have hc : c.gens = gs.map Seeded.obj := by rw [← hcc]
    generalize hst : swNew c { x with gen := rng (child r x.spawned), spawned := x.spawned + 1 } = st at e
    generalize hst' : swNew c { x' with gen := rng (child r x'.spawned), spawned := x'.spawned + 1 } = st'
    have q1 : Each Memory.cold Ms st.subs st'.subs := by rw [← hst, ← hst']; exact h2
    have q2 : st.cur = st'.cur := by rw [← hst, ← hst']; simp only [swNew, h4]
    have q3 : st.gen = st'.gen := by rw [← hst, ← hst']; simp only [swNew, h4]
    have q4 : st.spawned = st'.spawned := by rw [← hst, ← hst']; simp only [swNew, h4]
    have q5 : st.k = st'.k := by rw [← hst, ← hst']; rfl
    have q6 : st.len = st'.len := by rw [← hst, ← hst']; simp only [swNew, h4]
    cases ho : onCurrent c st (fun g t => g.reset t s i) with
    | mk d1 r1 =>
      rw [ho] at e
      cases r1 with
      | error er => simp at e
      | ok o1 =>
        obtain ⟨subs', e', k1, k2, k3⟩ := onCurrent_same (Q := Memory.cold) (Q' := Memory.warm) hc (fun g M x x' d o hg => hg.reset x x' s i d o)
          (fun g M x x' hg => hg.warm_cold x x') h st st' q1 q2
          (fun M y y' hM hy hy' => by
            obtain ⟨M2, y2, a1, a2, a3⟩ := each_at q1 hy
            rw [hM, Option.some.injEq] at a1
            rw [hy', Option.some.injEq] at a2
            subst a1
            subst a2
            exact a3) d1 o1 ho
        rw [e']
        simp only [Prod.mk.injEq] at e ⊢
        obtain ⟨rfl, e⟩ := e
        refine ⟨_, ⟨rfl, e⟩, rfl, k2, ?_, ?_, ?_, ?_, ?_, k3⟩
        · show d1.gen = st'.gen
          rw [k1, q3]
        · show d1.spawned = st'.spawned
          rw [k1, q4]
        · show d1.k = st'.k
          rw [k1, q5]
        · show d1.len = st'.len
          rw [k1, q6]
        · show d1.cur = st'.cur
          rw [k1, q2]
  · obtain ⟨r, x⟩ := x
    obtain ⟨r', x'⟩ := x'
    obtain ⟨h1, h2, h3, h4, h5, h6, h7, h8⟩ := hx
    dsimp only at h1 h2 h3 h4 h5 h6 h7 h8
    subst h1
    simp only [Seeded.obj, s3, swRef] at e ⊢
    generalize hcc : (⟨gs.map Seeded.obj, integers, choice, fun n => rng (child r n)⟩ : SwCfg G (Stream × σ) ℝ) = c at e ⊢
    have hc : c.gens = gs.map Seeded.obj := by rw [← hcc]
    cases ho : onCurrent c x (fun g t => g.getRef t s) with
    | mk d1 r1 =>
      rw [ho] at e
      cases r1 with
      | error er => simp [Call.bind] at e
      | ok o1 =>
        obtain ⟨subs', e', k1, k2, k3⟩ := onCurrent_same (Q := Memory.warm) (Q' := Memory.hot) hc (fun g M x x' d o hg => hg.getRef x x' s d o)
          (fun g M x x' hg => hg.hot_cold x x') h x x' h2 h7 h8 d1 o1 ho
        rw [e']
        simp only [Call.bind, Prod.mk.injEq, Except.ok.injEq] at e ⊢
        obtain ⟨rfl, rfl⟩ := e
        refine ⟨_, ⟨rfl, rfl⟩, rfl, k2, ?_, ?_, ?_, ?_, ?_, rfl, k3⟩
        · show d1.gen = x'.gen
          rw [k1, h3]
        · show d1.spawned = x'.spawned
          rw [k1, h4]
        · show d1.k = x'.k
          rw [k1, h5]
        · show d1.len = x'.len
          rw [k1, h6]
        · show d1.cur = x'.cur
          rw [k1, h7]
  · obtain ⟨r, x⟩ := x
    obtain ⟨r', x'⟩ := x'
    obtain ⟨h1, h2, h3, h4, h5, h6, h7, h9, h8⟩ := hx
    dsimp only at h1 h2 h3 h4 h5 h6 h7 h8 h9
    subst h1
    simp only [Seeded.obj, s3, swObs] at e ⊢
    generalize hcc : (⟨gs.map Seeded.obj, integers, choice, fun n => rng (child r n)⟩ : SwCfg G (Stream × σ) ℝ) = c at e ⊢
    have hc : c.gens = gs.map Seeded.obj := by rw [← hcc]
    rw [← h5, ← h6, ← h9]
    split
    · rename_i hle
      rw [if_pos hle] at e
      generalize hst : swNew c x = st at e
      generalize hst' : swNew c x' = st'
      have q1 : Each Memory.cold Ms st.subs st'.subs := by rw [← hst, ← hst']; exact h2
      have q2 : st.cur = st'.cur := by rw [← hst, ← hst']; simp only [swNew, h3]
      have q3 : st.gen = st'.gen := by rw [← hst, ← hst']; simp only [swNew, h3]
      have q4 : st.spawned = st'.spawned := by rw [← hst, ← hst']; simp only [swNew, h4]
      have q5 : st.k = st'.k := by rw [← hst, ← hst']; rfl
      have q6 : st.len = st'.len := by rw [← hst, ← hst']; simp only [swNew, h3]
      cases ho : onCurrent c st (fun g t => g.reset t s x.reference) with
      | mk d1 r1 =>
        rw [ho] at e
        cases r1 with
        | error er => simp [Call.bind] at e
        | ok o1 =>
          obtain ⟨subs', e', k1, k2, k3⟩ := onCurrent_same (Q := Memory.cold) (Q' := Memory.warm) hc
            (fun g M y y' d o hg => hg.reset y y' s x.reference d o)
            (fun g M x x' hg => hg.warm_cold x x') h st st' q1 q2
            (fun M y y' hM hy hy' => by
              obtain ⟨M2, y2, a1, a2, a3⟩ := each_at q1 hy
              rw [hM, Option.some.injEq] at a1
              rw [hy', Option.some.injEq] at a2
              subst a1
              subst a2
              exact a3) d1 o1 ho
          rw [e']
          simp only [Call.bind, Prod.mk.injEq, Except.ok.injEq] at e ⊢
          obtain ⟨rfl, e⟩ := e
          refine ⟨_, ⟨rfl, e⟩, rfl, k2, ?_, ?_, ?_, ?_, ?_, k3⟩
          · show d1.gen = st'.gen
            rw [k1, q3]
          · show d1.spawned = st'.spawned
            rw [k1, q4]
          · show d1.k + 1 = st'.k + 1
            rw [k1, q5]
          · show d1.len = st'.len
            rw [k1, q6]
          · show d1.cur = st'.cur
            rw [k1, q2]
    · rename_i hle
      rw [if_neg hle] at e
      cases ho : onCurrent c x (fun g t => g.getObs t s) with
      | mk d1 r1 =>
        rw [ho] at e
        cases r1 with
        | error er => simp [Call.bind] at e
        | ok o1 =>
          obtain ⟨subs', e', k1, k2, k3⟩ := onCurrent_same (Q := Memory.hot) (Q' := Memory.warm) hc
            (fun g M x x' d o hg => hg.getObs x x' s d o)
            (fun g M x x' hg => hg.warm_cold x x') h x x' h2 h7 h8 d1 o1 ho
          rw [e']
          simp only [Call.bind, Prod.mk.injEq, Except.ok.injEq] at e ⊢
          obtain ⟨rfl, rfl⟩ := e
          refine ⟨_, ⟨rfl, rfl⟩, rfl, k2, ?_, ?_, ?_, ?_, ?_, k3⟩
          · show d1.gen = x'.gen
            rw [k1, h3]
          · show d1.spawned = x'.spawned
            rw [k1, h4]
          · show d1.k + 1 = x'.k + 1
            rw [k1, h5]
          · show d1.len = x'.len
            rw [k1, h6]
          · show d1.cur = x'.cur
            rw [k1, h7]
  · obtain ⟨h1, h2, h3, h4, -⟩ := hx
    exact ⟨h1, h2, h3, h4⟩
  · obtain ⟨h1, h2, h3, h4, -⟩ := hx
    exact ⟨h1, h2, h3, h4⟩

end references

end

end GEM.Props
