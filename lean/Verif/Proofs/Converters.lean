import Mathlib.Tactic.Linarith
import Mathlib.Tactic.Ring
import Mathlib.Tactic.FieldSimp
import Mathlib.Tactic.Positivity
import Mathlib.Tactic.IntervalCases
import Verif.Model.ConverterHistory
import Verif.Spec.Converters

/-! Helper lemmas for the converter theorems. -/

set_option linter.unusedSectionVars false

namespace GEM.Conv

open GEM.Spec

variable {K : Type*} [Field K] [LinearOrder K] [IsStrictOrderedRing K]

/-! ### sorted lists of switching times -/

theorem mem_sortedSet {l : List K} {x : K} : x ∈ sortedSet l ↔ x ∈ l := by
  simp [sortedSet]

theorem sortedSet_pairwise (l : List K) : (sortedSet l).Pairwise (· < ·) :=
  (l.toFinset.sortedLT_sort).pairwise

theorem getLast?_of_pairwise {l : List K} (h : l.Pairwise (· < ·)) {m : K} (hm : m ∈ l)
    (hle : ∀ x ∈ l, x ≤ m) : l.getLast? = some m := by
  induction l with
  | nil => simp at hm
  | cons a l ih =>
    rcases l with _ | ⟨b, l⟩
    · simp at hm; simp [hm]
    · rw [List.getLast?_cons_cons]
      have h' := List.pairwise_cons.1 h
      apply ih h'.2
      · rcases List.mem_cons.1 hm with rfl | hm
        · have := h'.1 b (by simp)
          have := hle b (by simp)
          linarith
        · exact hm
      · intro x hx; exact hle x (by simp [hx])

theorem partitions_sortedSet {t tau : K} {l : List K} (hl : ∀ x ∈ l, t < x ∧ x ≤ t + tau)
    (hm : t + tau ∈ l) : PartitionsInterval t tau (sortedSet l) := by
  refine ⟨sortedSet_pairwise l, ?_, ?_⟩
  · intro x hx; exact hl x (mem_sortedSet.1 hx)
  · apply getLast?_of_pairwise (sortedSet_pairwise l) (mem_sortedSet.2 hm)
    intro x hx; exact (hl x (mem_sortedSet.1 hx)).2

theorem partitions_last_mem {t tau : K} {l : List K} (h : PartitionsInterval t tau l) :
    t + tau ∈ l := List.mem_of_getLast? h.2.2

/-! ### well-formed half bridges -/

/-- Only switch positions 0, 1, 2 occur. -/
def TwoQC.WF (c : TwoQC K) : Prop := c.state < 3 ∧ ∀ s ∈ c.pattern, s < 3

theorem TwoQC.WF.new (tau il : K) : (TwoQC.new tau il).WF := by simp [TwoQC.WF, TwoQC.new]

theorem TwoQC.WF.setAction {c : TwoQC K} (h : c.WF) (a : ℕ) (t : K) : (c.setAction a t).1.WF := by
  unfold TwoQC.setAction
  split
  · split <;> simp_all [TwoQC.WF]
  · exact h

theorem TwoQC.WF.convert {c : TwoQC K} (h : c.WF) (i : List K) (t : K) : (c.convert i t).1.WF := by
  unfold TwoQC.convert
  split
  · exact h
  · rename_i s hs
    refine ⟨?_, h.2⟩
    apply h.2
    split at hs
    · exact List.mem_of_getLast? hs
    · exact List.mem_of_head? hs

theorem TwoQC.WF.reset {c : TwoQC K} (h : c.WF) : c.reset.1.WF := h

theorem TwoQC.convert_out {c : TwoQC K} {i : List K} {t : K} {us : List K}
    (hu : (c.convert i t).2 = .ok us) : ∃ u, us = [u] ∧ (u = 0 ∨ u = 1) := by
  unfold TwoQC.convert at hu
  split at hu
  · simp at hu
  · rename_i s hs
    simp only at hu
    split at hu
    · split at hu
      · simp at hu
      · simp only [Except.ok.injEq] at hu; subst hu
        split <;> simp
    · simp only [Except.ok.injEq] at hu; subst hu; simp
    · simp only [Except.ok.injEq] at hu; subst hu; simp
    · simp at hu

/-- All half bridges inside a converter are well-formed. -/
def FConv.WF : FConv K → Prop
  | .one c => c.action < 2
  | .two c => c.WF
  | .four c => c.sub0.WF ∧ c.sub1.WF
  | .b6 c => c.s0.WF ∧ c.s1.WF ∧ c.s2.WF

theorem FConv.WF.fresh {tau il : K} {c : FConv K} (h : FConv.Fresh tau il c) : c.WF := by
  cases h <;> simp [FConv.WF, OneQC.new, FourQC.new, B6.new, TwoQC.WF.new]

theorem FConv.WF.setAction {c : FConv K} (h : c.WF) (a : ℕ) (t : K) : (c.setAction a t).1.WF := by
  cases c with
  | one c =>
    simp only [FConv.setAction, Prod.map, OneQC.setAction]
    split <;> simp_all [FConv.WF]
  | two c => exact TwoQC.WF.setAction h a t
  | four c =>
    simp only [FConv.setAction, Prod.map, FourQC.setAction]
    split
    · split
      · exact ⟨h.1.setAction _ _, h.2⟩
      · exact ⟨h.1.setAction _ _, h.2.setAction _ _⟩
    · exact h
  | b6 c =>
    simp only [FConv.setAction, Prod.map, B6.setAction]
    split
    · split
      · exact ⟨h.1.setAction _ _, h.2⟩
      · split
        · exact ⟨h.1.setAction _ _, h.2.1.setAction _ _, h.2.2⟩
        · exact ⟨h.1.setAction _ _, h.2.1.setAction _ _, h.2.2.setAction _ _⟩
    · exact h

theorem FConv.WF.convert {c : FConv K} (h : c.WF) (i : List K) (t : K) : (c.convert i t).1.WF := by
  cases c with
  | one c => cases i <;> simp_all [FConv.convert, OneQC.convert, FConv.WF]
  | two c => exact TwoQC.WF.convert h i t
  | four c =>
    simp only [FConv.convert, Prod.map, FourQC.convert]
    split
    · exact ⟨h.1.convert _ _, h.2.convert _ _⟩
    · exact ⟨h.1.convert _ _, h.2⟩
    · exact ⟨h.1.convert _ _, h.2⟩
  | b6 c =>
    simp only [FConv.convert, Prod.map, B6.convert]
    split
    · exact h
    · split
      · split
        · exact ⟨h.1.convert _ _, h.2.1.convert _ _, h.2.2.convert _ _⟩
        · exact ⟨h.1.convert _ _, h.2.1.convert _ _, h.2.2⟩
        · exact ⟨h.1.convert _ _, h.2.1.convert _ _, h.2.2⟩
      · exact ⟨h.1.convert _ _, h.2⟩
      · exact ⟨h.1.convert _ _, h.2⟩

theorem FConv.WF.reset {c : FConv K} (h : c.WF) : c.reset.1.WF := by
  cases c with
  | one c => simp [FConv.reset, OneQC.reset, FConv.WF]
  | two c => exact h
  | four c => exact h
  | b6 c => exact h

theorem FConv.WF.setTau {c : FConv K} (h : c.WF) (v : K) : (c.setTau v).WF := by
  cases c <;> exact h

theorem FConv.WF.step {c : FConv K} (h : c.WF) (op : FOp K) : (c.step op).WF := by
  cases op with
  | setAction a t => exact h.setAction a t
  | convert i t => exact h.convert i t
  | reset => exact h.reset
  | setTau v => exact h.setTau v

theorem FConv.WF.run {c : FConv K} (h : c.WF) (ops : List (FOp K)) : (c.run ops).WF := by
  induction ops generalizing c with
  | nil => exact h
  | cons op ops ih => exact ih (h.step op)

theorem FConv.WF.convert_inBox {c : FConv K} (h : c.WF) {i : List K} {t : K} {us : List K}
    (hu : (c.convert i t).2 = .ok us) : InBox c.lows c.highs us := by
  cases c with
  | one c =>
    cases i with
    | nil => simp [FConv.convert, OneQC.convert] at hu
    | cons x xs =>
      simp only [FConv.convert, Prod.map, OneQC.convert, id, Except.ok.injEq] at hu
      subst hu
      have h2 : c.action < 2 := h
      have : (c.action : K) ≤ 1 := by exact_mod_cast Nat.lt_succ_iff.1 h2
      simp only [InBox, FConv.lows, FConv.highs, FConv.dim, FConv.vLow, FConv.vHigh, List.replicate_one,
        List.forall₂_cons, List.forall₂_nil_left_iff, and_true]
      split <;> simp [this]
  | two c =>
    obtain ⟨u, rfl, hu'⟩ := TwoQC.convert_out (us := us) (by simpa [FConv.convert] using hu)
    simp only [InBox, FConv.lows, FConv.highs, FConv.dim, FConv.vLow, FConv.vHigh, List.replicate_one,
        List.forall₂_cons, List.forall₂_nil_left_iff, and_true]
    rcases hu' with rfl | rfl <;> simp
  | four c =>
    simp only [FConv.convert, Prod.map, id, FourQC.convert] at hu
    split at hu
    · rename_i u0 l0 x l hu0
      try simp only at hu
      split at hu
      · rename_i u1 l1 hu1
        simp only [Except.ok.injEq] at hu; subst hu
        obtain ⟨v0, e0, h0⟩ := TwoQC.convert_out hu0
        obtain ⟨v1, e1, h1⟩ := TwoQC.convert_out hu1
        simp only [List.cons.injEq] at e0 e1
        obtain ⟨rfl, -⟩ := e0
        obtain ⟨rfl, -⟩ := e1
        simp only [InBox, FConv.lows, FConv.highs, FConv.dim, FConv.vLow, FConv.vHigh, List.replicate_one,
          List.forall₂_cons, List.forall₂_nil_left_iff, and_true]
        rcases h0 with rfl | rfl <;> rcases h1 with rfl | rfl <;> constructor <;> norm_num
      · simp at hu
      · simp at hu
    · simp at hu
    · simp at hu
  | b6 c =>
    simp only [FConv.convert, Prod.map, id, B6.convert] at hu
    split at hu
    · simp at hu
    · split at hu
      · rename_i u0 l0 x1 l1 hu0
        try simp only at hu
        split at hu
        · rename_i u1 l1' x2 l2 hu1
          try simp only at hu
          split at hu
          · rename_i u2 l2' hu2
            simp only [Except.ok.injEq] at hu; subst hu
            obtain ⟨v0, e0, h0⟩ := TwoQC.convert_out hu0
            obtain ⟨v1, e1, h1⟩ := TwoQC.convert_out hu1
            obtain ⟨v2, e2, h2⟩ := TwoQC.convert_out hu2
            simp only [List.cons.injEq] at e0 e1 e2
            obtain ⟨rfl, -⟩ := e0
            obtain ⟨rfl, -⟩ := e1
            obtain ⟨rfl, -⟩ := e2
            have key : ∀ u : K, u = 0 ∨ u = 1 → -1 ≤ u - 1 / 2 ∧ u - 1 / 2 ≤ 1 := by
              rintro u (rfl | rfl) <;> constructor <;> linarith
            simp only [InBox, FConv.lows, FConv.highs, FConv.dim, FConv.vLow, FConv.vHigh,
              List.replicate_succ, List.replicate_zero,
              List.forall₂_cons, List.forall₂_nil_left_iff, and_true]
            exact ⟨⟨(key _ h0).1, (key _ h1).1, (key _ h2).1⟩, (key _ h0).2, (key _ h1).2, (key _ h2).2⟩
          · simp at hu
          · simp at hu
        · simp at hu
        · simp at hu
      · simp at hu
      · simp at hu

theorem InBox.append {a b c a' b' c' : List K} (h : InBox a b c) (h' : InBox a' b' c') :
    InBox (a ++ a') (b ++ b') (c ++ c') :=
  ⟨List.rel_append h.1 h'.1, List.rel_append h.2 h'.2⟩

/-! ### multi converters -/

theorem FConv.sameShape_setAction (c : FConv K) (a : ℕ) (t : K) :
    (c.setAction a t).1.dim = c.dim ∧ (c.setAction a t).1.vLow = c.vLow ∧
      (c.setAction a t).1.vHigh = c.vHigh := by
  cases c <;> simp [FConv.setAction, FConv.dim, FConv.vLow, FConv.vHigh]

theorem FConv.sameShape_convert (c : FConv K) (a : List K) (t : K) :
    (c.convert a t).1.dim = c.dim ∧ (c.convert a t).1.vLow = c.vLow ∧
      (c.convert a t).1.vHigh = c.vHigh := by
  cases c <;> simp [FConv.convert, FConv.dim, FConv.vLow, FConv.vHigh]

theorem FConv.sameShape_reset (c : FConv K) :
    c.reset.1.dim = c.dim ∧ c.reset.1.vLow = c.vLow ∧ c.reset.1.vHigh = c.vHigh := by
  cases c <;> simp [FConv.reset, FConv.dim, FConv.vLow, FConv.vHigh]

theorem FConv.sameShape_setTau (c : FConv K) (v : K) :
    (c.setTau v).dim = c.dim ∧ (c.setTau v).vLow = c.vLow ∧ (c.setTau v).vHigh = c.vHigh := by
  cases c <;> simp [FConv.setTau, FConv.dim, FConv.vLow, FConv.vHigh]

def MWF (cs : List (FConv K)) : Prop := ∀ c ∈ cs, c.WF

theorem multiConvert_inBox {cs : List (FConv K)} (h : MWF cs) {i : List K} {t : K} {us : List K}
    (hu : (multiConvert cs i t).2 = .ok us) : InBox (mLows cs) (mHighs cs) us := by
  induction cs generalizing i us with
  | nil =>
    simp only [multiConvert, Except.ok.injEq] at hu; subst hu
    simp [InBox, mLows, mHighs]
  | cons c cs ih =>
    simp only [multiConvert] at hu
    split at hu
    · simp at hu
    · rename_i u0 hu0
      try simp only at hu
      split at hu
      · simp at hu
      · rename_i us' hus
        simp only [Except.ok.injEq] at hu; subst hu
        simp only [mLows, mHighs, List.flatMap_cons]
        exact InBox.append ((h c (by simp)).convert_inBox hu0) (ih (fun d hd => h d (by simp [hd])) hus)

/-- Pointwise invariants of multi converters. -/
theorem multi_step_pres (P : FConv K → Prop)
    (hS : ∀ c a t, P c → P (c.setAction a t).1) (hC : ∀ c i t, P c → P (c.convert i t).1)
    (hR : ∀ c, P c → P c.reset.1) (hT : ∀ c v, P c → P (c.setTau v))
    (cs : List (FConv K)) (h : ∀ c ∈ cs, P c) (op : MOp K) : ∀ c ∈ mStep cs op, P c := by
  cases op with
  | setAction a t =>
    simp only [mStep, multiSetAction]
    induction cs generalizing a with
    | nil => simp [multiSetActionAux]
    | cons c cs ih =>
      cases a with
      | nil => simpa [multiSetActionAux] using h
      | cons a as =>
        simp only [multiSetActionAux]
        split
        · intro d hd
          rcases List.mem_cons.1 hd with rfl | hd
          · exact hS _ _ _ (h c (by simp))
          · exact h d (by simp [hd])
        · intro d hd
          rcases List.mem_cons.1 hd with rfl | hd
          · exact hS _ _ _ (h c (by simp))
          · exact ih (fun e he => h e (by simp [he])) as d hd
  | convert i t =>
    simp only [mStep]
    induction cs generalizing i with
    | nil => simp [multiConvert]
    | cons c cs ih =>
      simp only [multiConvert]
      split
      · intro d hd
        rcases List.mem_cons.1 hd with rfl | hd
        · exact hC _ _ _ (h c (by simp))
        · exact h d (by simp [hd])
      · intro d hd
        rcases List.mem_cons.1 hd with rfl | hd
        · exact hC _ _ _ (h c (by simp))
        · exact ih (fun e he => h e (by simp [he])) _ d hd
  | reset =>
    simp only [mStep]
    induction cs with
    | nil => simp [multiReset]
    | cons c cs ih =>
      intro d hd
      simp only [multiReset] at hd
      rcases List.mem_cons.1 hd with rfl | hd
      · exact hR _ (h c (by simp))
      · exact ih (fun e he => h e (by simp [he])) d hd
  | setTau v =>
    intro d hd
    simp only [mStep, multiSetTau, List.mem_map] at hd
    obtain ⟨c, hc, rfl⟩ := hd
    exact hT _ _ (h c hc)

theorem MWF.run {cs : List (FConv K)} (h : MWF cs) (ops : List (MOp K)) : MWF (mRun cs ops) := by
  induction ops generalizing cs with
  | nil => exact h
  | cons op ops ih =>
    exact ih (multi_step_pres FConv.WF (fun c a t h => h.setAction a t) (fun c i t h => h.convert i t)
      (fun c h => h.reset) (fun c v h => h.setTau v) cs h op)

/-- Kind of converter as far as the declared spaces are concerned. -/
def FConv.box (c : FConv K) : List K × List K := (c.lows, c.highs)

theorem box_setAction (c : FConv K) (a : ℕ) (t : K) : (c.setAction a t).1.box = c.box := by
  cases c <;> rfl
theorem box_convert (c : FConv K) (i : List K) (t : K) : (c.convert i t).1.box = c.box := by
  cases c <;> rfl
theorem box_reset (c : FConv K) : c.reset.1.box = c.box := by cases c <;> rfl
theorem box_setTau (c : FConv K) (v : K) : (c.setTau v).box = c.box := by cases c <;> rfl

theorem mStep_box (cs : List (FConv K)) (op : MOp K) : (mStep cs op).map FConv.box = cs.map FConv.box := by
  cases op with
  | setAction a t =>
    simp only [mStep, multiSetAction]
    induction cs generalizing a with
    | nil => simp [multiSetActionAux]
    | cons c cs ih =>
      cases a with
      | nil => simp [multiSetActionAux]
      | cons a as =>
        simp only [multiSetActionAux]
        split <;> simp [box_setAction, ih]
  | convert i t =>
    simp only [mStep]
    induction cs generalizing i with
    | nil => simp [multiConvert]
    | cons c cs ih =>
      simp only [multiConvert]
      split <;> simp [box_convert, ih]
  | reset =>
    simp only [mStep]
    induction cs with
    | nil => simp [multiReset]
    | cons c cs ih => simp [multiReset, box_reset, ih]
  | setTau v => simp [mStep, multiSetTau, box_setTau, Function.comp_def]

theorem mRun_box (cs : List (FConv K)) (ops : List (MOp K)) :
    (mRun cs ops).map FConv.box = cs.map FConv.box := by
  induction ops generalizing cs with
  | nil => rfl
  | cons op ops ih => exact (ih _).trans (mStep_box cs op)

theorem mLows_eq (cs : List (FConv K)) : mLows cs = (cs.map FConv.box).flatMap Prod.fst := by
  simp [mLows, List.flatMap_map, FConv.box]
theorem mHighs_eq (cs : List (FConv K)) : mHighs cs = (cs.map FConv.box).flatMap Prod.snd := by
  simp [mHighs, List.flatMap_map, FConv.box]

theorem FConv.run_box (c : FConv K) (ops : List (FOp K)) : (c.run ops).box = c.box := by
  induction ops generalizing c with
  | nil => rfl
  | cons op ops ih =>
    refine (ih _).trans ?_
    cases op with
    | setAction a t => exact box_setAction c a t
    | convert i t => exact box_convert c i t
    | reset => exact box_reset c
    | setTau v => exact box_setTau c v


/-! ### totality of `convert` after `set_action` -/

theorem TwoQC.setAction_ok (c : TwoQC K) {a : ℕ} (ha : a < 3) (t : K) :
    ∃ ts, (c.setAction a t).2 = .ok ts := by
  unfold TwoQC.setAction
  rw [if_pos ha]
  split <;> simp

theorem TwoQC.pattern_setAction (c : TwoQC K) {a : ℕ} (ha : a < 3) (t : K) :
    (c.setAction a t).1.pattern ≠ [] := by
  unfold TwoQC.setAction
  rw [if_pos ha]
  split <;> simp

theorem TwoQC.convert_ok {c : TwoQC K} (hw : c.WF) (hp : c.pattern ≠ []) (x : K) (l : List K) (t : K) :
    ∃ u, (c.convert (x :: l) t).2 = .ok [u] := by
  have key : ∀ o : Option ℕ, (∃ s, o = some s ∧ s < 3) →
      ∃ u : K, (match o with
        | none => ((c, .error .index) : Call (TwoQC K) (List K))
        | some s => ({ c with state := s },
          match s with
          | 0 => (match x :: l with | [] => .error .index | x :: _ => .ok [if x < 0 then 1 else 0])
          | 1 => .ok [1]
          | 2 => .ok [0]
          | _ => .error .generic)).2 = .ok [u] := by
    rintro o ⟨s, rfl, hs⟩
    interval_cases s <;> simp
  apply key
  split
  · exact ⟨_, List.getLast?_eq_some_getLast hp, hw.2 _ (List.getLast_mem hp)⟩
  · exact ⟨_, List.head?_eq_some_head hp, hw.2 _ (List.head_mem hp)⟩

/-- `set_action` has succeeded at least once. -/
def FConv.Ready : FConv K → Prop
  | .one _ => True
  | .two c => c.pattern ≠ []
  | .four c => c.sub0.pattern ≠ [] ∧ c.sub1.pattern ≠ []
  | .b6 c => c.s0.pattern ≠ [] ∧ c.s1.pattern ≠ [] ∧ c.s2.pattern ≠ []

theorem fourAction_lt (a : ℕ) : fourAction0 a < 3 ∧ fourAction1 a < 3 := by
  unfold fourAction0 fourAction1
  constructor <;> split <;> simp

theorem b6Sub_lt (a : ℕ) : (b6Sub a).1 < 3 ∧ (b6Sub a).2.1 < 3 ∧ (b6Sub a).2.2 < 3 := by
  unfold b6Sub
  split <;> simp

theorem FourQC.setAction_eq (c : FourQC K) {a : ℕ} (ha : a < 4) (t : K) :
    ∃ t0 t1, (c.sub0.setAction (fourAction0 a) t).2 = .ok t0 ∧ (c.sub1.setAction (fourAction1 a) t).2 = .ok t1 ∧
      c.setAction a t = ({ c with sub0 := (c.sub0.setAction (fourAction0 a) t).1,
                                  sub1 := (c.sub1.setAction (fourAction1 a) t).1 },
        .ok (sortedSet (t0 ++ t1))) := by
  obtain ⟨t0, h0⟩ := c.sub0.setAction_ok (fourAction_lt a).1 t
  obtain ⟨t1, h1⟩ := c.sub1.setAction_ok (fourAction_lt a).2 t
  refine ⟨t0, t1, h0, h1, ?_⟩
  unfold FourQC.setAction
  rw [if_pos ha]
  simp [h0, h1]

theorem B6.setAction_eq (c : B6 K) {a : ℕ} (ha : a < 8) (t : K) :
    ∃ t0 t1 t2, (c.s0.setAction (b6Sub a).1 t).2 = .ok t0 ∧ (c.s1.setAction (b6Sub a).2.1 t).2 = .ok t1 ∧
      (c.s2.setAction (b6Sub a).2.2 t).2 = .ok t2 ∧
      c.setAction a t = ({ c with s0 := (c.s0.setAction (b6Sub a).1 t).1,
                                  s1 := (c.s1.setAction (b6Sub a).2.1 t).1,
                                  s2 := (c.s2.setAction (b6Sub a).2.2 t).1 },
        .ok (sortedSet (t0 ++ t1 ++ t2))) := by
  obtain ⟨t0, h0⟩ := c.s0.setAction_ok (b6Sub_lt a).1 t
  obtain ⟨t1, h1⟩ := c.s1.setAction_ok (b6Sub_lt a).2.1 t
  obtain ⟨t2, h2⟩ := c.s2.setAction_ok (b6Sub_lt a).2.2 t
  refine ⟨t0, t1, t2, h0, h1, h2, ?_⟩
  unfold B6.setAction
  rw [if_pos ha]
  simp [h0, h1, h2]

theorem FConv.ready_setAction (c : FConv K) {a : ℕ} (ha : a < c.nActions) (t : K) :
    (c.setAction a t).1.Ready := by
  cases c with
  | one c => trivial
  | two c => exact c.pattern_setAction ha t
  | four c =>
    obtain ⟨t0, t1, -, -, h⟩ := c.setAction_eq ha t
    simp only [FConv.setAction, h, Prod.map]
    exact ⟨TwoQC.pattern_setAction _ (fourAction_lt a).1 t, TwoQC.pattern_setAction _ (fourAction_lt a).2 t⟩
  | b6 c =>
    obtain ⟨t0, t1, t2, -, -, -, h⟩ := c.setAction_eq ha t
    simp only [FConv.setAction, h, Prod.map]
    exact ⟨TwoQC.pattern_setAction _ (b6Sub_lt a).1 t, TwoQC.pattern_setAction _ (b6Sub_lt a).2.1 t,
      TwoQC.pattern_setAction _ (b6Sub_lt a).2.2 t⟩

theorem FConv.convert_ok {c : FConv K} (hw : c.WF) (hr : c.Ready) {i : List K} (hi : i.length = c.dim) (t : K) :
    ∃ us, (c.convert i t).2 = .ok us := by
  cases c with
  | one c =>
    obtain ⟨x, rfl⟩ := List.length_eq_one_iff.1 hi
    exact ⟨_, rfl⟩
  | two c =>
    obtain ⟨x, rfl⟩ := List.length_eq_one_iff.1 hi
    obtain ⟨u, hu⟩ := TwoQC.convert_ok hw hr x [] t
    exact ⟨[u], by simp [FConv.convert, hu]⟩
  | four c =>
    obtain ⟨x, rfl⟩ := List.length_eq_one_iff.1 hi
    obtain ⟨u, hu⟩ := TwoQC.convert_ok hw.1 hr.1 x [] t
    obtain ⟨v, hv⟩ := TwoQC.convert_ok hw.2 hr.2 (-x) [] t
    exact ⟨[u - v], by simp [FConv.convert, FourQC.convert, hu, hv]⟩
  | b6 c =>
    obtain ⟨x, y, z, rfl⟩ := List.length_eq_three.1 hi
    obtain ⟨u, hu⟩ := TwoQC.convert_ok hw.1 hr.1 x [] t
    obtain ⟨v, hv⟩ := TwoQC.convert_ok hw.2.1 hr.2.1 y [] t
    obtain ⟨w, hw⟩ := TwoQC.convert_ok hw.2.2 hr.2.2 z [] t
    exact ⟨[u - 1 / 2, v - 1 / 2, w - 1 / 2], by simp [FConv.convert, B6.convert, hu, hv, hw]⟩

/-! ### switching times -/

/-- The half bridges use sampling time `T` and an interlocking time in `[0, T)`. -/
def TwoQC.Timed (T : K) (c : TwoQC K) : Prop := c.tau = T ∧ 0 ≤ c.il ∧ c.il < T

def FConv.Timed (T : K) : FConv K → Prop
  | .one c => c.tau = T ∧ 0 < T
  | .two c => c.Timed T
  | .four c => c.sub0.Timed T ∧ c.sub1.Timed T
  | .b6 c => c.s0.Timed T ∧ c.s1.Timed T ∧ c.s2.Timed T

theorem TwoQC.cfg_setAction (c : TwoQC K) (a : ℕ) (t : K) :
    (c.setAction a t).1.tau = c.tau ∧ (c.setAction a t).1.il = c.il := by
  unfold TwoQC.setAction
  split
  · split <;> simp
  · simp

theorem TwoQC.cfg_convert (c : TwoQC K) (i : List K) (t : K) :
    (c.convert i t).1.tau = c.tau ∧ (c.convert i t).1.il = c.il := by
  unfold TwoQC.convert
  split <;> simp

theorem TwoQC.Timed.setAction {T : K} {c : TwoQC K} (h : c.Timed T) (a : ℕ) (t : K) :
    (c.setAction a t).1.Timed T := by
  simp only [TwoQC.Timed, c.cfg_setAction a t]; exact h

theorem TwoQC.Timed.convert {T : K} {c : TwoQC K} (h : c.Timed T) (i : List K) (t : K) :
    (c.convert i t).1.Timed T := by
  simp only [TwoQC.Timed, c.cfg_convert i t]; exact h

theorem FConv.Timed.fresh {tau il : K} {c : FConv K} (h : FConv.Fresh tau il c) (h0 : 0 ≤ il) (h1 : il < tau) :
    c.Timed tau := by
  cases h <;> simp [FConv.Timed, TwoQC.Timed, OneQC.new, FourQC.new, B6.new, TwoQC.new, h0, h1]
  exact lt_of_le_of_lt h0 h1

theorem FConv.Timed.setAction {T : K} {c : FConv K} (h : c.Timed T) (a : ℕ) (t : K) :
    (c.setAction a t).1.Timed T := by
  cases c with
  | one c =>
    simp only [FConv.setAction, Prod.map, OneQC.setAction]
    split <;> exact h
  | two c => exact TwoQC.Timed.setAction h a t
  | four c =>
    simp only [FConv.setAction, Prod.map, FourQC.setAction]
    split
    · split
      · exact ⟨h.1.setAction _ _, h.2⟩
      · exact ⟨h.1.setAction _ _, h.2.setAction _ _⟩
    · exact h
  | b6 c =>
    simp only [FConv.setAction, Prod.map, B6.setAction]
    split
    · split
      · exact ⟨h.1.setAction _ _, h.2⟩
      · split
        · exact ⟨h.1.setAction _ _, h.2.1.setAction _ _, h.2.2⟩
        · exact ⟨h.1.setAction _ _, h.2.1.setAction _ _, h.2.2.setAction _ _⟩
    · exact h

theorem FConv.Timed.convert {T : K} {c : FConv K} (h : c.Timed T) (i : List K) (t : K) :
    (c.convert i t).1.Timed T := by
  cases c with
  | one c => cases i <;> exact h
  | two c => exact TwoQC.Timed.convert h i t
  | four c =>
    simp only [FConv.convert, Prod.map, FourQC.convert]
    split
    · exact ⟨h.1.convert _ _, h.2.convert _ _⟩
    · exact ⟨h.1.convert _ _, h.2⟩
    · exact ⟨h.1.convert _ _, h.2⟩
  | b6 c =>
    simp only [FConv.convert, Prod.map, B6.convert]
    split
    · exact h
    · split
      · split
        · exact ⟨h.1.convert _ _, h.2.1.convert _ _, h.2.2.convert _ _⟩
        · exact ⟨h.1.convert _ _, h.2.1.convert _ _, h.2.2⟩
        · exact ⟨h.1.convert _ _, h.2.1.convert _ _, h.2.2⟩
      · exact ⟨h.1.convert _ _, h.2⟩
      · exact ⟨h.1.convert _ _, h.2⟩

theorem FConv.Timed.reset {T : K} {c : FConv K} (h : c.Timed T) : c.reset.1.Timed T := by
  cases c <;> exact h

theorem FConv.Timed.run {T : K} {c : FConv K} (h : c.Timed T) (ops : List (FOp K))
    (hops : ∀ op ∈ ops, ∀ v, op ≠ .setTau v) : (c.run ops).Timed T := by
  induction ops generalizing c with
  | nil => exact h
  | cons op ops ih =>
    apply ih _ (fun o ho => hops o (by simp [ho]))
    cases op with
    | setAction a t => exact h.setAction a t
    | convert i t => exact h.convert i t
    | reset => exact h.reset
    | setTau v => exact absurd rfl (hops (.setTau v) (by simp) v)

theorem TwoQC.Timed.partitions {T : K} {c : TwoQC K} (h : c.Timed T) {a : ℕ} (ha : a < 3) (t : K)
    {ts : List K} (hts : (c.setAction a t).2 = .ok ts) : PartitionsInterval t T ts := by
  obtain ⟨rfl, h0, h1⟩ := h
  unfold TwoQC.setAction at hts
  rw [if_pos ha] at hts
  split at hts
  · simp only [Except.ok.injEq] at hts; subst hts
    refine ⟨by simp, ?_, by simp⟩
    intro x hx
    simp only [List.mem_singleton] at hx; subst hx
    exact ⟨by linarith, le_refl _⟩
  · rename_i hc
    push Not at hc
    have : 0 < c.il := lt_of_le_of_ne h0 (Ne.symm hc.2.2.2)
    simp only [Except.ok.injEq] at hts; subst hts
    refine ⟨by simpa using h1, ?_, by simp⟩
    intro x hx
    simp only [List.mem_cons, List.not_mem_nil, or_false] at hx
    rcases hx with rfl | rfl <;> constructor <;> linarith

theorem FConv.Timed.partitions {T : K} {c : FConv K} (h : c.Timed T) {a : ℕ} (ha : a < c.nActions) (t : K) :
    ∃ ts, (c.setAction a t).2 = .ok ts ∧ PartitionsInterval t T ts := by
  cases c with
  | one c =>
    obtain ⟨rfl, h0⟩ := h
    have ha' : a < 2 := ha
    refine ⟨[t + c.tau], by simp [FConv.setAction, OneQC.setAction, ha'], by simp, ?_, by simp⟩
    intro x hx
    simp only [List.mem_singleton] at hx; subst hx
    exact ⟨by linarith, le_refl _⟩
  | two c =>
    obtain ⟨ts, hts⟩ := c.setAction_ok ha t
    exact ⟨ts, by simp [FConv.setAction, hts], TwoQC.Timed.partitions h ha t hts⟩
  | four c =>
    obtain ⟨t0, t1, h0, h1, he⟩ := c.setAction_eq ha t
    have p0 := h.1.partitions (fourAction_lt a).1 t h0
    have p1 := h.2.partitions (fourAction_lt a).2 t h1
    refine ⟨sortedSet (t0 ++ t1), by simp [FConv.setAction, he], partitions_sortedSet ?_ ?_⟩
    · intro x hx
      rcases List.mem_append.1 hx with hx | hx
      · exact p0.2.1 x hx
      · exact p1.2.1 x hx
    · exact List.mem_append_left _ (partitions_last_mem p0)
  | b6 c =>
    obtain ⟨t0, t1, t2, h0, h1, h2, he⟩ := c.setAction_eq ha t
    have p0 := h.1.partitions (b6Sub_lt a).1 t h0
    have p1 := h.2.1.partitions (b6Sub_lt a).2.1 t h1
    have p2 := h.2.2.partitions (b6Sub_lt a).2.2 t h2
    refine ⟨sortedSet (t0 ++ t1 ++ t2), by simp [FConv.setAction, he], partitions_sortedSet ?_ ?_⟩
    · intro x hx
      rcases List.mem_append.1 hx with hx | hx
      · rcases List.mem_append.1 hx with hx | hx
        · exact p0.2.1 x hx
        · exact p1.2.1 x hx
      · exact p2.2.1 x hx
    · exact List.mem_append_left _ (List.mem_append_left _ (partitions_last_mem p0))

/-- The multi converter loop returns the union of partitions. -/
theorem multiAux_partitions {T : K} {cs : List (FConv K)} (h : ∀ c ∈ cs, c.Timed T) {as : List ℕ}
    (ha : List.Forall₂ (fun c a => a < FConv.nActions c) cs as) (t : K) :
    ∃ ts, (multiSetActionAux cs as t).2 = .ok ts ∧ (∀ x ∈ ts, t < x ∧ x ≤ t + T) ∧ (cs ≠ [] → t + T ∈ ts) := by
  induction ha with
  | nil => exact ⟨[], rfl, by simp, by simp⟩
  | @cons c a cs as hca _ ih =>
    obtain ⟨ts, hts, hp⟩ := (h c (by simp)).partitions hca t
    obtain ⟨tss, htss, hb, -⟩ := ih (fun d hd => h d (by simp [hd]))
    refine ⟨ts ++ tss, by simp [multiSetActionAux, hts, htss], ?_, ?_⟩
    · intro x hx
      rcases List.mem_append.1 hx with hx | hx
      · exact hp.2.1 x hx
      · exact hb x hx
    · intro _; exact List.mem_append_left _ (partitions_last_mem hp)

/-! ### no shoot-through -/

/-- State of the monitor against the state of the half bridge at the end of an interval ending at `tEnd`. -/
def MonOk (il tEnd : K) (c : TwoQC K) : Bridge K → Prop
  | .idle => c.state = 0
  | .closed s => c.state = s ∧ s ≠ 0
  | .opened _ t0 => c.state = 0 ∧ t0 + il ≤ tEnd

theorem TwoQC.convert_single {c : TwoQC K} {a : ℕ} (hp : c.pattern = [a]) (i : List K) (t : K) :
    (c.convert i t).1 = { c with state := a } := by
  unfold TwoQC.convert
  simp only [hp, List.getLast?_singleton, List.head?_cons, ite_self]

theorem TwoQC.convert_pair {c : TwoQC K} {a : ℕ} (hp : c.pattern = [0, a]) (i : List K) (t : K) :
    (c.convert i t).1 = { c with state := if t - c.tau / 1000 > c.start + c.il then a else 0 } := by
  unfold TwoQC.convert
  by_cases h : t - c.tau / 1000 > c.start + c.il
  · simp [hp, h]
  · simp [hp, h]

theorem convertTrace_cfg (c : TwoQC K) (l : List (List K × K)) :
    (convertTrace c l).1.tau = c.tau ∧ (convertTrace c l).1.il = c.il := by
  induction l generalizing c with
  | nil => simp [convertTrace]
  | cons p l ih =>
    obtain ⟨i, t⟩ := p
    simp only [convertTrace]
    rw [(ih _).1, (ih _).2]
    exact c.cfg_convert i t

theorem trace_single {c : TwoQC K} {a : ℕ} (hp : c.pattern = [a]) (l : List (List K × K)) :
    (∀ o ∈ (convertTrace c l).2, o.2 = a) ∧ (l ≠ [] → (convertTrace c l).1.state = a) := by
  induction l generalizing c with
  | nil => simp [convertTrace]
  | cons p l ih =>
    obtain ⟨i, t⟩ := p
    have e := TwoQC.convert_single hp i t
    have hp' : ((c.convert i t).1).pattern = [a] := by rw [e]; exact hp
    obtain ⟨h1, h2⟩ := ih hp'
    simp only [convertTrace]
    constructor
    · intro o ho
      rcases List.mem_cons.1 ho with rfl | ho
      · simp [e]
      · exact h1 o ho
    · intro _
      cases l with
      | nil => simp [convertTrace, e]
      | cons q l => exact h2 (by simp)

theorem foldlM_closed (il : K) (a : ℕ) (obs : List (K × ℕ)) (h : ∀ o ∈ obs, o.2 = a) (ha : a ≠ 0) :
    obs.foldlM (Bridge.observe il) (Bridge.closed a) = some (Bridge.closed a) := by
  induction obs with
  | nil => rfl
  | cons o obs ih =>
    obtain ⟨t, s⟩ := o
    have : s = a := h (t, s) (by simp)
    subst this
    rw [List.foldlM_cons]
    have : Bridge.observe il (Bridge.closed s) (t, s) = some (Bridge.closed s) := by
      cases s with
      | zero => exact absurd rfl ha
      | succ n => simp [Bridge.observe]
    rw [this]
    exact ih (fun o ho => h o (by simp [ho]))

theorem foldlM_open (il : K) (s : ℕ) (t0 : K) (obs : List (K × ℕ)) (h : ∀ o ∈ obs, o.2 = 0) :
    obs.foldlM (Bridge.observe il) (Bridge.opened s t0) = some (Bridge.opened s t0) := by
  induction obs with
  | nil => rfl
  | cons o obs ih =>
    obtain ⟨t, s'⟩ := o
    have : s' = 0 := h (t, s') (by simp)
    subst this
    rw [List.foldlM_cons]
    exact ih (fun o ho => h o (by simp [ho]))

theorem foldlM_idle (il : K) (obs : List (K × ℕ)) (h : ∀ o ∈ obs, o.2 = 0) :
    obs.foldlM (Bridge.observe il) Bridge.idle = some Bridge.idle := by
  induction obs with
  | nil => rfl
  | cons o obs ih =>
    obtain ⟨t, s'⟩ := o
    have : s' = 0 := h (t, s') (by simp)
    subst this
    rw [List.foldlM_cons]
    exact ih (fun o ho => h o (by simp [ho]))

theorem observe_closed (il : K) (s s' : ℕ) (hs : s' ≠ 0) (t t0 : K) (h : s' = s ∨ il ≤ t - t0) :
    Bridge.observe il (Bridge.opened s t0) (t, s') = some (Bridge.closed s') := by
  cases s' with
  | zero => exact absurd rfl hs
  | succ n => simp [Bridge.observe, h]

/-- The pattern `[0, a]` after switch `s` was closed: both open until past `start + il`, then `a`. -/
theorem trace_pair {c : TwoQC K} {a s : ℕ} (hp : c.pattern = [0, a]) (ha : a ≠ 0) (htau : 0 ≤ c.tau)
    (l : List (List K × K)) (hl : l.Pairwise (fun p q => p.2 ≤ q.2)) {tEnd : K} (hend : c.start + c.il ≤ tEnd)
    (hst : c.state = 0) :
    ∃ m, (convertTrace c l).2.foldlM (Bridge.observe c.il) (Bridge.opened s c.start) = some m ∧
      MonOk c.il tEnd (convertTrace c l).1 m := by
  induction l generalizing c with
  | nil => exact ⟨_, rfl, hst, hend⟩
  | cons p l ih =>
    obtain ⟨i, t⟩ := p
    have e := TwoQC.convert_pair hp i t
    simp only [convertTrace, List.foldlM_cons]
    by_cases hc : t - c.tau / 1000 > c.start + c.il
    · -- switched over: every later call is even later
      rw [if_pos hc] at e
      have hd : 0 ≤ c.tau / 1000 := by positivity
      have hobs : Bridge.observe c.il (Bridge.opened s c.start) (t, ((c.convert i t).1).state)
          = some (Bridge.closed a) := by
        rw [e]; exact observe_closed _ _ _ ha _ _ (Or.inr (by linarith))
      rw [hobs]
      have hlater : ∀ (d : TwoQC K), d = { c with state := a } → ∀ l' : List (List K × K),
          (∀ q ∈ l', t ≤ q.2) → (∀ o ∈ (convertTrace d l').2, o.2 = a) ∧ (convertTrace d l').1.state = a := by
        intro d hd' l' hl'
        induction l' generalizing d with
        | nil => simp [convertTrace, hd']
        | cons q l' ih' =>
          obtain ⟨i', t'⟩ := q
          have hp' : d.pattern = [0, a] := by rw [hd']; exact hp
          have e' := TwoQC.convert_pair hp' i' t'
          have ht' : t ≤ t' := hl' (i', t') (by simp)
          have hc' : t' - d.tau / 1000 > d.start + d.il := by rw [hd']; simp only; linarith
          rw [if_pos hc'] at e'
          have e'' : (d.convert i' t').1 = { c with state := a } := by rw [e', hd']
          obtain ⟨h1, h2⟩ := ih' _ e'' (fun q hq => hl' q (by simp [hq]))
          simp only [convertTrace]
          refine ⟨?_, h2⟩
          intro o ho
          rcases List.mem_cons.1 ho with rfl | ho
          · simp [e'']
          · exact h1 o ho
      obtain ⟨h1, h2⟩ := hlater _ e l (fun q hq => (List.pairwise_cons.1 hl).1 q hq)
      refine ⟨_, foldlM_closed _ a _ h1 ha, h2, ha⟩
    · rw [if_neg hc] at e
      have hobs : Bridge.observe c.il (Bridge.opened s c.start) (t, ((c.convert i t).1).state)
          = some (Bridge.opened s c.start) := by
        rw [e]; rfl
      rw [hobs]
      have := @ih ((c.convert i t).1) (by rw [e]; exact hp) (by rw [e]; exact htau)
        (List.pairwise_cons.1 hl).2 (by rw [e]; exact hend) (by rw [e])
      rw [e] at this ⊢
      exact this

/-- One control interval keeps the monitor quiet. -/
theorem period_step {c : TwoQC K} (hil : 0 < c.il) (htau : c.il ≤ c.tau) {p : Period K}
    (ha : p.action < 3) (hs : ((p.i0, p.t) :: p.samples).Pairwise (fun p q => p.2 ≤ q.2))
    {tPrev : K} (hprev : tPrev ≤ p.t) {m : Bridge K} (hm : MonOk c.il tPrev c m) :
    ∃ m', (convertTrace (c.setAction p.action p.t).1 ((p.i0, p.t) :: p.samples)).2.foldlM
        (Bridge.observe c.il) m = some m' ∧
      MonOk c.il (p.t + c.tau) (convertTrace (c.setAction p.action p.t).1 ((p.i0, p.t) :: p.samples)).1 m' := by
  obtain ⟨a, t, i0, smp⟩ := p
  simp only at ha hs hprev ⊢
  by_cases hcase : a = 0 ∨ c.state = 0 ∨ a = c.state ∨ c.il = 0
  · -- immediate switching
    have e : (c.setAction a t).1 = { c with start := t, action := a, pattern := [a] } := by
      unfold TwoQC.setAction; rw [if_pos ha, if_pos hcase]
    rw [e]
    set d : TwoQC K := { c with start := t, action := a, pattern := [a] } with hd
    have hpat : d.pattern = [a] := rfl
    obtain ⟨h1, h2⟩ := trace_single hpat ((i0, t) :: smp)
    have h2 := h2 (by simp)
    -- split off the first observation
    have hfirst : ∃ rest, (convertTrace d ((i0, t) :: smp)).2 = (t, a) :: rest := by
      refine ⟨(convertTrace (d.convert i0 t).1 smp).2, ?_⟩
      simp [convertTrace, TwoQC.convert_single hpat]
    obtain ⟨rest, hrest⟩ := hfirst
    have hr : ∀ o ∈ rest, o.2 = a := fun o ho => h1 o (by rw [hrest]; simp [ho])
    rw [hrest, List.foldlM_cons]
    by_cases ha0 : a = 0
    · subst ha0
      cases m with
      | idle => exact ⟨_, foldlM_idle _ rest hr, h2⟩
      | closed s => exact ⟨_, foldlM_open _ s t rest hr, h2, by linarith⟩
      | opened s t0 => exact ⟨_, foldlM_open _ s t0 rest hr, h2, by have := hm.2; linarith⟩
    · have hobs : Bridge.observe c.il m (t, a) = some (Bridge.closed a) := by
        cases m with
        | idle => cases a with
          | zero => exact absurd rfl ha0
          | succ n => rfl
        | closed s =>
          have hs' : a = s := by
            obtain ⟨h3, h4⟩ := hm
            rcases hcase with h | h | h | h
            · exact absurd h ha0
            · rw [h3] at h; exact absurd h h4
            · rw [h, h3]
            · exact absurd h hil.ne'
          subst hs'
          cases a with
          | zero => exact absurd rfl ha0
          | succ n => simp [Bridge.observe]
        | opened s t0 =>
          exact observe_closed _ _ _ ha0 _ _ (Or.inr (by have := hm.2; linarith))
      rw [hobs]
      exact ⟨_, foldlM_closed _ a rest hr ha0, h2, ha0⟩
  · -- interlocked switching: the monitor must have seen the other switch closed
    have e : (c.setAction a t).1 = { c with start := t, action := a, pattern := [0, a] } := by
      unfold TwoQC.setAction; rw [if_pos ha, if_neg hcase]
    push Not at hcase
    obtain ⟨ha0, hst, hne, -⟩ := hcase
    rw [e]
    set d : TwoQC K := { c with start := t, action := a, pattern := [0, a] } with hd
    have hpat : d.pattern = [0, a] := rfl
    have htau0 : 0 ≤ c.tau := by linarith
    have hclosed : m = Bridge.closed c.state := by
      cases m with
      | idle => exact absurd hm hst
      | closed s => rw [hm.1]
      | opened s t0 => exact absurd hm.1 hst
    subst hclosed
    have e0 := TwoQC.convert_pair hpat i0 t
    have hnot : ¬ (t - d.tau / 1000 > d.start + d.il) := by
      have : 0 ≤ c.tau / 1000 := by positivity
      simp only [hd]; linarith
    rw [if_neg hnot] at e0
    simp only [convertTrace, List.foldlM_cons]
    have hobs : Bridge.observe c.il (Bridge.closed c.state) (t, ((d.convert i0 t).1).state)
        = some (Bridge.opened c.state t) := by
      rw [e0]; rfl
    rw [hobs]
    have := @trace_pair K _ _ _ ((d.convert i0 t).1) a c.state (by rw [e0]) ha0 (by rw [e0]; exact htau0)
      smp (List.pairwise_cons.1 hs).2 (t + c.tau) (by rw [e0]; simp only [hd]; linarith) (by rw [e0])
    have hil' : ((d.convert i0 t).1).il = c.il := by rw [e0]
    have hst' : ((d.convert i0 t).1).start = t := by rw [e0]
    rw [hil', hst'] at this
    exact this

theorem periods_quiet {c : TwoQC K} (hil : 0 < c.il) (htau : c.il ≤ c.tau) {ps : List (Period K)}
    {tPrev : K} (hp : Protocol c.tau tPrev ps) {m : Bridge K} (hm : MonOk c.il tPrev c m) :
    ∃ m', (periodTrace c ps).foldlM (Bridge.observe c.il) m = some m' := by
  induction ps generalizing c tPrev m with
  | nil => exact ⟨m, rfl⟩
  | cons p ps ih =>
    obtain ⟨h1, h2, h3, h4⟩ := hp
    obtain ⟨m', hm', hok⟩ := period_step hil htau h2 h3 h1 hm
    have hc := convertTrace_cfg (c.setAction p.action p.t).1 ((p.i0, p.t) :: p.samples)
    rw [(c.cfg_setAction _ _).1, (c.cfg_setAction _ _).2] at hc
    have hrec := @ih ((convertTrace (c.setAction p.action p.t).1 ((p.i0, p.t) :: p.samples)).1)
      (by rw [hc.2]; exact hil) (by rw [hc.2, hc.1]; exact htau) (p.t + c.tau) (by rw [hc.1]; exact h4) m'
      (by rw [hc.2]; exact hok)
    rw [hc.2] at hrec
    obtain ⟨m'', hm''⟩ := hrec
    refine ⟨m'', ?_⟩
    simp only [periodTrace, List.foldlM_append]
    rw [hm']
    exact hm''

end GEM.Conv
