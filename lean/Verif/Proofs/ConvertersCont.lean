import Verif.Proofs.Converters

/-! Helper lemmas for the continuous converters. -/

set_option linter.unusedSectionVars false

namespace GEM.Conv

open GEM.Spec

variable {K : Type*} [Field K] [LinearOrder K] [IsStrictOrderedRing K]

theorem clip_mem {x lo hi : K} (h : lo ≤ hi) : lo ≤ clip x lo hi ∧ clip x lo hi ≤ hi := by
  unfold clip; exact ⟨le_min (le_max_right _ _) h, min_le_right _ _⟩

theorem clip_of_mem {x lo hi : K} (h1 : lo ≤ x) (h2 : x ≤ hi) : clip x lo hi = x := by
  unfold clip; rw [max_eq_left h1, min_eq_left h2]

theorem clip_half (x : K) : clip (1 / 2 * (clip x (-1) 1 + 1)) 0 1 = clip (1 / 2 * (x + 1)) 0 1 := by
  unfold clip
  simp only [min_def, max_def]
  split_ifs <;> linarith

theorem clip_half' (x : K) : clip (-(1 / 2) * (clip x (-1) 1 - 1)) 0 1 = clip (-(1 / 2) * (x - 1)) 0 1 := by
  unfold clip
  simp only [min_def, max_def]
  split_ifs <;> linarith

theorem CConv.convert_inBox {c : CConv K} {i : List K} {t : K} {us : List K}
    (hu : c.convert i t = .ok us) : InBox c.lows c.highs us := by
  have h01 : (0 : K) ≤ 1 := zero_le_one
  cases c with
  | one c =>
    cases i with
    | nil => simp [CConv.convert, COne.convert] at hu
    | cons x xs =>
      simp only [CConv.convert, COne.convert, Except.ok.injEq] at hu
      subst hu
      simp only [InBox, CConv.lows, CConv.highs, CConv.dim, CConv.vLow, CConv.vHigh, List.replicate_one,
        List.forall₂_cons, List.forall₂_nil_left_iff, and_true]
      exact clip_mem h01
  | two c =>
    cases i with
    | nil => simp [CConv.convert, CTwo.convert] at hu
    | cons x xs =>
      simp only [CConv.convert, CTwo.convert, Except.ok.injEq] at hu
      subst hu
      simp only [InBox, CConv.lows, CConv.highs, CConv.dim, CConv.vLow, CConv.vHigh, List.replicate_one,
        List.forall₂_cons, List.forall₂_nil_left_iff, and_true]
      exact clip_mem h01
  | four c =>
    cases i with
    | nil => simp [CConv.convert, CFour.convert, CTwo.convert] at hu
    | cons x xs =>
      simp only [CConv.convert, CFour.convert, CTwo.convert, Except.ok.injEq] at hu
      subst hu
      simp only [InBox, CConv.lows, CConv.highs, CConv.dim, CConv.vLow, CConv.vHigh, List.replicate_one,
        List.forall₂_cons, List.forall₂_nil_left_iff, and_true]
      have h0 := clip_mem (x := c.sub0.action - c.sub0.interlock x) h01
      have h1 := clip_mem (x := c.sub1.action - c.sub1.interlock x) h01
      constructor <;> linarith [h0.1, h0.2, h1.1, h1.2]
  | b6 c =>
    match i, hu with
    | [], hu => simp [CConv.convert, CB6.convert] at hu
    | [_], hu => simp [CConv.convert, CB6.convert] at hu
    | [_, _], hu => simp [CConv.convert, CB6.convert] at hu
    | x :: y :: z :: l, hu =>
      simp only [CConv.convert, CB6.convert, CTwo.convert, Except.ok.injEq] at hu
      subst hu
      simp only [InBox, CConv.lows, CConv.highs, CConv.dim, CConv.vLow, CConv.vHigh,
        List.replicate_succ, List.replicate_zero,
        List.forall₂_cons, List.forall₂_nil_left_iff, and_true]
      have h0 := clip_mem (x := c.s0.action - c.s0.interlock x) h01
      have h1 := clip_mem (x := c.s1.action - c.s1.interlock y) h01
      have h2 := clip_mem (x := c.s2.action - c.s2.interlock z) h01
      refine ⟨⟨?_, ?_, ?_⟩, ?_, ?_, ?_⟩ <;> linarith [h0.1, h0.2, h1.1, h1.2, h2.1, h2.2]

theorem cMultiConvert_inBox {cs : List (CConv K)} {i : List K} {t : K} {us : List K}
    (hu : cMultiConvert cs i t = .ok us) : InBox (cmLows cs) (cmHighs cs) us := by
  induction cs generalizing i us with
  | nil =>
    simp only [cMultiConvert, Except.ok.injEq] at hu; subst hu
    simp [InBox, cmLows, cmHighs]
  | cons c cs ih =>
    simp only [cMultiConvert] at hu
    split at hu
    · rename_i a b ha hb
      simp only [Except.ok.injEq] at hu; subst hu
      simp only [cmLows, cmHighs, List.flatMap_cons]
      exact InBox.append (CConv.convert_inBox ha) (ih hb)
    · simp at hu
    · simp at hu

theorem CConv.convert_ok (c : CConv K) {i : List K} (hi : i.length = c.dim) (t : K) :
    ∃ us, c.convert i t = .ok us := by
  cases c with
  | one c => obtain ⟨x, rfl⟩ := List.length_eq_one_iff.1 hi; exact ⟨_, rfl⟩
  | two c => obtain ⟨x, rfl⟩ := List.length_eq_one_iff.1 hi; exact ⟨_, rfl⟩
  | four c => obtain ⟨x, rfl⟩ := List.length_eq_one_iff.1 hi; exact ⟨_, rfl⟩
  | b6 c => obtain ⟨x, y, z, rfl⟩ := List.length_eq_three.1 hi; exact ⟨_, rfl⟩

/-- Duty cycles of the half bridges are in [0,1]; interlocking time and sampling time as constructed. -/
def CTwo.WF (il : K) (c : CTwo K) : Prop := 0 ≤ c.action ∧ c.action ≤ 1 ∧ c.il = il

def CConv.WF (il : K) : CConv K → Prop
  | .one c => 0 ≤ c.action ∧ c.action ≤ 1
  | .two c => c.WF il
  | .four c => c.sub0.WF il ∧ c.sub1.WF il ∧ c.sub1.action = 1 - c.sub0.action
      ∨ (c.sub0.action = 0 ∧ c.sub1.action = 0 ∧ c.sub0.il = il ∧ c.sub1.il = il)
  | .b6 c => c.s0.WF il ∧ c.s1.WF il ∧ c.s2.WF il

theorem clip_compl (x : K) : clip (-(1 / 2) * (x - 1)) 0 1 = 1 - clip (1 / 2 * (x + 1)) 0 1 := by
  unfold clip
  simp only [min_def, max_def]
  split_ifs <;> linarith

theorem CConv.WF.fresh {tau il : K} {c : CConv K} (h : CConv.Fresh tau il c) : c.WF il := by
  cases h <;> simp [CConv.WF, CTwo.WF, COne.new, CTwo.new, CFour.new, CB6.new]

theorem CTwo.WF.set {il : K} {c : CTwo K} (h : c.il = il) (x : K) (t : K) :
    (c.setAction [x] t).1.WF il := by
  have := clip_mem (x := x) (zero_le_one (α := K))
  exact ⟨this.1, this.2, h⟩

theorem CConv.WF.setAction {il : K} {c : CConv K} (h : c.WF il) (a : List K) (t : K) :
    (c.setAction a t).1.WF il := by
  cases c with
  | one c =>
    match a with
    | [] => exact h
    | [x] => exact clip_mem zero_le_one
    | _ :: _ :: _ => exact h
  | two c =>
    match a with
    | [] => exact h
    | [x] => exact CTwo.WF.set h.2.2 x t
    | _ :: _ :: _ => exact h
  | four c =>
    match a with
    | [] => exact h
    | [x] =>
      have hil : c.sub0.il = il ∧ c.sub1.il = il := by
        rcases h with h | h
        · exact ⟨h.1.2.2, h.2.1.2.2⟩
        · exact h.2.2
      left
      exact ⟨CTwo.WF.set hil.1 _ t, CTwo.WF.set hil.2 _ t, clip_compl x⟩
    | _ :: _ :: _ => exact h
  | b6 c =>
    match a with
    | [] => exact h
    | [_] => exact h
    | [_, _] => exact h
    | x :: y :: z :: l =>
      exact ⟨CTwo.WF.set h.1.2.2 _ t, CTwo.WF.set h.2.1.2.2 _ t, CTwo.WF.set h.2.2.2.2 _ t⟩

theorem CConv.WF.reset {il : K} {c : CConv K} (h : c.WF il) : c.reset.1.WF il := by
  cases c with
  | one c => simp [CConv.reset, CConv.WF]
  | two c => simp [CConv.reset, CConv.WF, CTwo.WF]; exact h.2.2
  | four c =>
    right
    have hil : c.sub0.il = il ∧ c.sub1.il = il := by
      rcases h with h | h
      · exact ⟨h.1.2.2, h.2.1.2.2⟩
      · exact h.2.2
    exact ⟨rfl, rfl, hil⟩
  | b6 c => exact ⟨⟨le_refl _, zero_le_one, h.1.2.2⟩, ⟨le_refl _, zero_le_one, h.2.1.2.2⟩,
      ⟨le_refl _, zero_le_one, h.2.2.2.2⟩⟩

theorem CConv.WF.run {il : K} {c : CConv K} (h : c.WF il) (ops : List (COp K)) : (c.run ops).WF il := by
  induction ops generalizing c with
  | nil => exact h
  | cons op ops ih =>
    apply ih
    cases op with
    | setAction a t => exact h.setAction a t
    | reset => exact h.reset
    | setTau v => cases c <;> exact h

theorem CTwo.convert_noil {c : CTwo K} (h : c.WF 0) (x : K) (l : List K) (t : K) :
    c.convert (x :: l) t = .ok [c.action] := by
  simp only [CTwo.convert, CTwo.interlock, h.2.2, mul_zero, sub_zero, clip_of_mem h.1 h.2.1]

theorem CTwo.iSup_noil {c : CTwo K} (h : c.WF 0) (x : K) (l : List K) :
    c.iSup (x :: l) = .ok (c.action * x) := by
  simp only [CTwo.iSup, h.2.2, zero_div, zero_mul, add_zero]

theorem CTwo.passive {c : CTwo K} (h0 : 0 ≤ c.action) (h1 : c.action ≤ 1) (hd0 : 0 ≤ c.il / c.tau)
    (hd1 : c.il / c.tau ≤ 1) (x : K) :
    clip (c.action - c.interlock x) 0 1 * x
      ≤ (c.action + c.il / c.tau * ((if x < 0 then 1 else 0) - c.action)) * x := by
  set d := c.il / c.tau with hd
  set a := c.action
  have hint : c.interlock x = ((SignType.sign x : SignType) : K) * d := by
    simp only [CTwo.interlock, hd]; ring
  rw [hint]
  rcases lt_trichotomy x 0 with hx | hx | hx
  · rw [if_pos hx, sign_neg hx]
    apply mul_le_mul_of_nonpos_right _ hx.le
    simp only [SignType.coe_neg, SignType.coe_one]
    unfold clip
    apply le_min
    · apply le_trans _ (le_max_left _ _)
      nlinarith [mul_nonneg h0 hd0]
    · nlinarith [mul_nonneg (sub_nonneg.2 h1) (sub_nonneg.2 hd1)]
  · subst hx; simp
  · rw [if_neg (not_lt.2 hx.le), sign_pos hx]
    apply mul_le_mul_of_nonneg_right _ hx.le
    simp only [SignType.coe_one]
    unfold clip
    apply min_le_of_left_le
    apply max_le
    · nlinarith [mul_nonneg hd0 (sub_nonneg.2 h1)]
    · nlinarith [mul_nonneg h0 (sub_nonneg.2 hd1)]

/-! ### the kind of a converter never changes -/

/-- Same converter class. -/
def FConv.SameKind : FConv K → FConv K → Prop
  | .one _, c => ∃ d, c = .one d
  | .two _, c => ∃ d, c = .two d
  | .four _, c => ∃ d, c = .four d
  | .b6 _, c => ∃ d, c = .b6 d

theorem FConv.run_sameKind (c0 : FConv K) (ops : List (FOp K)) : c0.SameKind (c0.run ops) := by
  induction ops using List.reverseRecOn with
  | nil => cases c0 <;> exact ⟨_, rfl⟩
  | append_singleton l op ih =>
    simp only [FConv.run, List.foldl_append, List.foldl_cons, List.foldl_nil] at ih ⊢
    cases c0 <;> obtain ⟨d, hd⟩ := ih <;> rw [hd] <;> cases op <;> exact ⟨_, rfl⟩

/-- Same converter class. -/
def CConv.SameKind : CConv K → CConv K → Prop
  | .one _, c => ∃ d, c = .one d
  | .two _, c => ∃ d, c = .two d
  | .four _, c => ∃ d, c = .four d
  | .b6 _, c => ∃ d, c = .b6 d

theorem CConv.run_sameKind (c0 : CConv K) (ops : List (COp K)) : c0.SameKind (c0.run ops) := by
  induction ops using List.reverseRecOn with
  | nil => cases c0 <;> exact ⟨_, rfl⟩
  | append_singleton l op ih =>
    simp only [CConv.run, List.foldl_append, List.foldl_cons, List.foldl_nil] at ih ⊢
    cases c0 <;> obtain ⟨d, hd⟩ := ih <;> rw [hd] <;> cases op <;> exact ⟨_, rfl⟩

end GEM.Conv
