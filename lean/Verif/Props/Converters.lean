import Mathlib.Tactic.NormNum
import Mathlib.Data.Rat.Cast.Order
import Verif.Proofs.ConvertersCont

/-!
# Properties C13–C21, C61, C62: power electronic converters

`FConv`, `CConv`: elementary finite / continuous converters, `Fresh tau il c`: `c` as constructed with sampling time
`tau` and interlocking time `il`, `run`: the object after a history of method calls.
-/

set_option linter.unusedSectionVars false

namespace GEM.Props

open GEM GEM.Conv GEM.Spec

variable {K : Type*} [Field K] [LinearOrder K] [IsStrictOrderedRing K]

/-! ## C13 Converter output stays in its declared voltage range -/

/-- C13, elementary finite converters: whatever was called before, an output of `convert` is in the declared box. -/
theorem c13_finite {tau il : K} {c : FConv K} (hc : FConv.Fresh tau il c) (ops : List (FOp K))
    (i : List K) (t : K) (us : List K) (hu : ((c.run ops).convert i t).2 = .ok us) :
    InBox c.lows c.highs us := by
  have h := ((FConv.WF.fresh hc).run ops).convert_inBox hu
  have e := c.run_box ops
  simp only [FConv.box, Prod.mk.injEq] at e
  rwa [e.1, e.2] at h

/-- C13, and `convert` does return for currents of the declared dimension once an action has been accepted. -/
theorem c13_finite_total {tau il : K} {c : FConv K} (hc : FConv.Fresh tau il c) (ops : List (FOp K))
    (a : ℕ) (ta : K) (ha : a < c.nActions) (i : List K) (hi : i.length = c.dim) (t : K) :
    ∃ us, (((c.run ops).setAction a ta).1.convert i t).2 = .ok us ∧ InBox c.lows c.highs us := by
  have hn : (c.run ops).nActions = c.nActions ∧ (c.run ops).dim = c.dim := by
    clear hi ha hc
    induction ops generalizing c with
    | nil => exact ⟨rfl, rfl⟩
    | cons op ops ih =>
      have := @ih (c.step op)
      refine ⟨this.1.trans ?_, this.2.trans ?_⟩ <;> cases op <;> cases c <;> rfl
  have hw := (FConv.WF.fresh hc).run ops
  have hdim : ((c.run ops).setAction a ta).1.dim = c.dim := by
    rw [((c.run ops).sameShape_setAction a ta).1]; exact hn.2
  obtain ⟨us, hus⟩ := FConv.convert_ok (hw.setAction a ta)
    ((c.run ops).ready_setAction (by rw [hn.1]; exact ha) ta) (by rw [hdim]; exact hi) t
  refine ⟨us, hus, ?_⟩
  have := c13_finite hc (ops ++ [.setAction a ta]) i t us (by simpa [FConv.run, FConv.step] using hus)
  exact this

/-- C13, finite multi converters. -/
theorem c13_finite_multi {cs : List (FConv K)} (hc : ∀ c ∈ cs, ∃ tau il, FConv.Fresh tau il c)
    (ops : List (MOp K)) (i : List K) (t : K) (us : List K)
    (hu : (multiConvert (mRun cs ops) i t).2 = .ok us) : InBox (mLows cs) (mHighs cs) us := by
  have hw : MWF cs := fun c h => by obtain ⟨tau, il, h⟩ := hc c h; exact FConv.WF.fresh h
  have h := multiConvert_inBox (hw.run ops) hu
  rwa [mLows_eq, mHighs_eq, mRun_box, ← mLows_eq, ← mHighs_eq] at h

/-- C13, continuous converters: in any state at all, and `convert` always returns. -/
theorem c13_cont (c : CConv K) (i : List K) (hi : i.length = c.dim) (t : K) :
    ∃ us, c.convert i t = .ok us ∧ InBox c.lows c.highs us := by
  obtain ⟨us, h⟩ := c.convert_ok hi t
  exact ⟨us, h, CConv.convert_inBox h⟩

/-- C13, continuous multi converters. -/
theorem c13_cont_multi (cs : List (CConv K)) (i : List K) (t : K) (us : List K)
    (hu : cMultiConvert cs i t = .ok us) : InBox (cmLows cs) (cmHighs cs) us :=
  cMultiConvert_inBox hu

/-- Non-vacuity: a B6 bridge with interlocking, switched twice, produces an output. -/
example : ∃ us, (((FConv.b6 (B6.new (1 : ℚ) (1/4))).run
    [.setAction 3 0, .convert [1, -1, 0] 0, .setAction 4 1]).convert [1, -1, 0] 1).2 = .ok us ∧
    us = [-1/2, 1/2, -1/2] := by
  refine ⟨[-1/2, 1/2, -1/2], ?_, rfl⟩
  simp [FConv.run, FConv.step, FConv.convert, FConv.setAction, B6.setAction, B6.convert, B6.new, TwoQC.new,
    TwoQC.setAction, TwoQC.convert, b6Sub]
  norm_num

/-! ## C14 No shoot-through -/

/-- C14: in every sequence of control intervals the hardware monitor never fires. `Protocol` only asks that actions
are legal, that an interval starts when the previous one is over, and that within an interval `convert` is first called
at its start and then at non-decreasing times (physical_systems.py 171–203). -/
theorem c14_no_shoot_through {tau il : K} (hil : 0 < il) (htau : il ≤ tau) (t0 : K) (ps : List (Period K))
    (hp : Protocol tau t0 ps) : NoShootThrough il (periodTrace (TwoQC.new tau il) ps) := by
  obtain ⟨m, hm⟩ := periods_quiet (c := TwoQC.new tau il) hil htau hp (m := .idle) rfl
  simp only [NoShootThrough]
  have : (TwoQC.new tau il).il = il := rfl
  rw [this] at hm
  rw [hm]; rfl

/-- Non-vacuity: a history that closes the upper, then the lower switch. -/
example : Protocol (1 : ℚ) 0 [⟨1, 0, [1], []⟩, ⟨2, 1, [1], [([1], 3/2)]⟩, ⟨1, 2, [1], []⟩] ∧
    periodTrace (TwoQC.new (1 : ℚ) (1/4)) [⟨1, 0, [1], []⟩, ⟨2, 1, [1], [([1], 3/2)]⟩, ⟨1, 2, [1], []⟩]
      = [(0, 1), (1, 0), (3/2, 2), (2, 0)] := by
  constructor
  · simp [Protocol]; norm_num
  · simp [periodTrace, convertTrace, TwoQC.setAction, TwoQC.convert, TwoQC.new]
    norm_num

/-- The monitor does fire on a direct change-over, and on one after too short a pause. -/
example : ¬ NoShootThrough (1/4 : ℚ) [(0, 1), (1, 2)] ∧ ¬ NoShootThrough (1/4 : ℚ) [(0, 1), (1, 0), (9/8, 2)] := by
  constructor <;> (simp [NoShootThrough, Bridge.observe]; try norm_num)

/-! ## C15 Switching times partition the control interval -/

/-- C15, elementary converters: after any history (without a change of the sampling time, see C20) an accepted action
returns switching times that partition `(t, t + tau]`, and every action of the action space is accepted. -/
theorem c15_partition_partial {tau il : K} {c : FConv K} (hc : FConv.Fresh tau il c) (h0 : 0 ≤ il) (h1 : il < tau)
    (ops : List (FOp K)) (hops : ∀ op ∈ ops, ∀ v, op ≠ .setTau v) (a : ℕ) (ha : a < c.nActions) (t : K) :
    ∃ ts, ((c.run ops).setAction a t).2 = .ok ts ∧ PartitionsInterval t tau ts := by
  have hn : (c.run ops).nActions = c.nActions := by
    clear hops ha hc
    induction ops generalizing c with
    | nil => rfl
    | cons op ops ih =>
      refine (ih (c := c.step op)).trans ?_
      cases op <;> cases c <;> rfl
  exact ((FConv.Timed.fresh hc h0 h1).run ops hops).partitions (by rw [hn]; exact ha) t

/-- C15, multi converters built from elementary ones with the same sampling time. -/
theorem c15_multi_partial {tau : K} {cs : List (FConv K)} (hne : cs ≠ [])
    (hc : ∀ c ∈ cs, ∃ il, FConv.Fresh tau il c ∧ 0 ≤ il ∧ il < tau)
    (ops : List (MOp K)) (hops : ∀ op ∈ ops, ∀ v, op ≠ .setTau v) (as : List ℕ)
    (ha : List.Forall₂ (fun c a => a < FConv.nActions c) (mRun cs ops) as) (t : K) :
    ∃ ts, (multiSetAction (mRun cs ops) as t).2 = .ok ts ∧ PartitionsInterval t tau ts := by
  have hT : ∀ c ∈ mRun cs ops, c.Timed tau := by
    have h0 : ∀ c ∈ cs, c.Timed tau := fun c h => by
      obtain ⟨il, h, h0, h1⟩ := hc c h; exact FConv.Timed.fresh h h0 h1
    clear ha hc hne
    induction ops generalizing cs with
    | nil => exact h0
    | cons op ops ih =>
      apply ih (fun o ho => hops o (by simp [ho]))
      -- the tau setter is excluded by `hops`
      cases op with
      | setTau v => exact absurd rfl (hops (.setTau v) (by simp) v)
      | setAction a t =>
        simp only [mStep, multiSetAction]
        clear ih hops
        induction cs generalizing a with
        | nil => simp [multiSetActionAux]
        | cons c cs ih =>
          cases a with
          | nil => simpa [multiSetActionAux] using h0
          | cons a as =>
            simp only [multiSetActionAux]
            split <;> intro d hd <;> rcases List.mem_cons.1 hd with rfl | hd
            · exact (h0 c (by simp)).setAction _ _
            · exact h0 d (by simp [hd])
            · exact (h0 c (by simp)).setAction _ _
            · exact ih (fun e he => h0 e (by simp [he])) as d hd
      | convert i t =>
        simp only [mStep]
        clear ih hops
        induction cs generalizing i with
        | nil => simp [multiConvert]
        | cons c cs ih =>
          simp only [multiConvert]
          split <;> intro d hd <;> rcases List.mem_cons.1 hd with rfl | hd
          · exact (h0 c (by simp)).convert _ _
          · exact h0 d (by simp [hd])
          · exact (h0 c (by simp)).convert _ _
          · exact ih (fun e he => h0 e (by simp [he])) _ d hd
      | reset =>
        simp only [mStep]
        clear ih hops
        induction cs with
        | nil => simp [multiReset]
        | cons c cs ih =>
          intro d hd
          simp only [multiReset] at hd
          rcases List.mem_cons.1 hd with rfl | hd
          · exact (h0 c (by simp)).reset
          · exact ih (fun e he => h0 e (by simp [he])) d hd
  have hne' : mRun cs ops ≠ [] := by
    intro h
    have := mRun_box cs ops
    rw [h] at this
    simp at this
    exact hne this
  obtain ⟨ts, h1, h2, h3⟩ := multiAux_partitions hT ha t
  exact ⟨sortedSet ts, by simp [multiSetAction, h1], partitions_sortedSet h2 (h3 hne')⟩

/-- Non-vacuity of C15: a change-over in the middle of the interval. -/
example : ((FConv.two (TwoQC.new (1 : ℚ) (1/4))).run [.setAction 1 0, .convert [1] 0] |>.setAction 2 1).2
    = .ok [5/4, 2] := by
  simp [FConv.run, FConv.step, FConv.convert, FConv.setAction, TwoQC.setAction, TwoQC.convert, TwoQC.new]
  norm_num

/-- C15/C20 fail after the documented way of changing the sampling time: a bridge told to use `tau` keeps scheduling
with the sampling time it was constructed with (converters.py 31–33: the setter does not reach the half bridges). -/
theorem c15_after_tau_change_violated (tau tau' : K) (h : tau ≠ tau') (a : ℕ) (t : K) :
    (a < 4 → ∃ ts, ((FConv.four (FourQC.new tau 0)).setTau tau' |>.setAction a t).2 = .ok ts ∧
      ¬ PartitionsInterval t tau' ts) ∧
    (a < 8 → ∃ ts, ((FConv.b6 (B6.new tau 0)).setTau tau' |>.setAction a t).2 = .ok ts ∧
      ¬ PartitionsInterval t tau' ts) := by
  have hs : ∀ l : List K, (∀ x ∈ l, x = t + tau) → ¬ PartitionsInterval t tau' (sortedSet l) := by
    intro l hl hp
    have := partitions_last_mem hp
    have := hl _ (mem_sortedSet.1 this)
    exact h (by linarith)
  have h2 : ∀ (s : ℕ) (ts : List K), ((TwoQC.new tau (0 : K)).setAction s t).2 = .ok ts → ∀ x ∈ ts, x = t + tau := by
    intro s ts hts x hx
    simp only [TwoQC.setAction, TwoQC.new] at hts
    split at hts
    · simp only [or_true, if_true, Except.ok.injEq] at hts
      subst hts; simpa using hx
    · simp at hts
  constructor
  · intro ha
    obtain ⟨t0, t1, e0, e1, he⟩ := ({ FourQC.new tau (0 : K) with tau := tau' } : FourQC K).setAction_eq ha t
    refine ⟨sortedSet (t0 ++ t1), by simp only [FConv.setTau, FConv.setAction, he, Prod.map, id], hs _ ?_⟩
    intro x hx
    rcases List.mem_append.1 hx with hx | hx
    · exact h2 _ _ e0 x hx
    · exact h2 _ _ e1 x hx
  · intro ha
    obtain ⟨t0, t1, t2, e0, e1, e2, he⟩ := ({ B6.new tau (0 : K) with tau := tau' } : B6 K).setAction_eq ha t
    refine ⟨sortedSet (t0 ++ t1 ++ t2), by simp only [FConv.setTau, FConv.setAction, he, Prod.map, id], hs _ ?_⟩
    intro x hx
    rcases List.mem_append.1 hx with hx | hx
    · rcases List.mem_append.1 hx with hx | hx
      · exact h2 _ _ e0 x hx
      · exact h2 _ _ e1 x hx
    · exact h2 _ _ e2 x hx

/-! ## C16 Ideal converters do not create or destroy power -/

/-- C16, half bridge: after `convert`, supply current = output voltage × output current. -/
theorem c16_two (c : TwoQC K) (x : K) (t : K) (us : List K) (hu : (c.convert [x] t).2 = .ok us) :
    (c.convert [x] t).1.iSup [x] = .ok (dot us [x]) := by
  unfold TwoQC.convert at hu ⊢
  split at hu
  · simp at hu
  · rename_i s hs
    simp only at hu ⊢
    simp only [TwoQC.iSup]
    split at hu
    · simp only [Except.ok.injEq] at hu; subst hu
      simp only [dot]
      by_cases hx : x < 0 <;> simp [hx]
    · simp only [Except.ok.injEq] at hu; subst hu; simp [dot]
    · simp only [Except.ok.injEq] at hu; subst hu; simp [dot]
    · simp at hu

/-- Output terms that do no work on the load: the B6 bridge refers its outputs to the DC-link midpoint. -/
def starPoint (c : FConv K) (i : List K) : K :=
  match c with
  | .b6 _ => 1 / 2 * i.sum
  | _ => 0

/-- C16, all elementary finite converters (with any interlocking): after any history `i_sup` for the current that was
just converted is the output power; the one-quadrant converter only carries non-negative currents. -/
theorem c16_finite {tau il : K} {c0 : FConv K} (hc : FConv.Fresh tau il c0) (ops : List (FOp K)) (i : List K) (t : K)
    (us : List K) (hi : i.length = c0.dim) (hone : (∃ d, c0 = .one d) → ∀ x ∈ i, 0 ≤ x)
    (hu : ((c0.run ops).convert i t).2 = .ok us) :
    ((c0.run ops).convert i t).1.iSup i = .ok (dot us i + starPoint c0 i) := by
  have hw := (FConv.WF.fresh hc).run ops
  have hk := c0.run_sameKind ops
  generalize c0.run ops = c at *
  cases c0 with
  | one d0 =>
    obtain ⟨d, rfl⟩ := hk
    obtain ⟨x, rfl⟩ := List.length_eq_one_iff.1 hi
    have hx : 0 ≤ x := hone ⟨_, rfl⟩ x (by simp)
    simp only [FConv.convert, OneQC.convert, Prod.map, id, Except.ok.injEq, hx, if_true] at hu ⊢
    subst hu
    have h2 : d.action < 2 := hw
    simp only [FConv.iSup, OneQC.iSup, starPoint, dot]
    interval_cases h : d.action <;> simp
  | two d0 =>
    obtain ⟨d, rfl⟩ := hk
    obtain ⟨x, rfl⟩ := List.length_eq_one_iff.1 hi
    have := c16_two d x t us (by simpa [FConv.convert] using hu)
    simpa [FConv.convert, FConv.iSup, starPoint] using this
  | four d0 =>
    obtain ⟨d, rfl⟩ := hk
    obtain ⟨x, rfl⟩ := List.length_eq_one_iff.1 hi
    simp only [FConv.convert, Prod.map, id, FourQC.convert] at hu ⊢
    split at hu
    · rename_i u0 l0 y l hu0 heq
      obtain ⟨rfl, rfl⟩ : y = x ∧ l = [] := by simpa using heq.symm
      simp only at hu
      split at hu
      · rename_i u1 l1 hu1
        simp only [Except.ok.injEq] at hu; subst hu
        have e0 := c16_two d.sub0 y t _ hu0
        have e1 := c16_two d.sub1 (-y) t _ hu1
        obtain ⟨v0, ev0, -⟩ := TwoQC.convert_out hu0
        obtain ⟨v1, ev1, -⟩ := TwoQC.convert_out hu1
        simp only [List.cons.injEq] at ev0 ev1
        obtain ⟨rfl, rfl⟩ := ev0
        obtain ⟨rfl, rfl⟩ := ev1
        simp only [FConv.iSup, FourQC.iSup, e0, e1, starPoint, dot]
        congr 1; ring
      · simp at hu
      · simp at hu
    · simp at hu
    · simp at hu
  | b6 d0 =>
    obtain ⟨d, rfl⟩ := hk
    obtain ⟨x, y, z, rfl⟩ := List.length_eq_three.1 hi
    simp only [FConv.convert, Prod.map, id, B6.convert] at hu ⊢
    cases h0 : (d.s0.convert [x] t).2 with
    | error e => simp [h0] at hu
    | ok l0 =>
      obtain ⟨v0, rfl, -⟩ := TwoQC.convert_out h0
      cases h1 : (d.s1.convert [y] t).2 with
      | error e => simp [h0, h1] at hu
      | ok l1 =>
        obtain ⟨v1, rfl, -⟩ := TwoQC.convert_out h1
        cases h2 : (d.s2.convert [z] t).2 with
        | error e => simp [h0, h1, h2] at hu
        | ok l2 =>
          obtain ⟨v2, rfl, -⟩ := TwoQC.convert_out h2
          simp only [h0, h1, h2, Except.ok.injEq] at hu; subst hu
          have e0 := c16_two d.s0 x t _ h0
          have e1 := c16_two d.s1 y t _ h1
          have e2 := c16_two d.s2 z t _ h2
          simp only [h1, FConv.iSup, B6.iSup, sumZip, e0, e1, e2, starPoint, dot, List.sum_cons, List.sum_nil]
          congr 1; ring

/-- Star-point term of the continuous B6 bridge. -/
def cStarPoint (c : CConv K) (i : List K) : K :=
  match c with
  | .b6 _ => 1 / 2 * i.sum
  | _ => 0

/-- C16, continuous converters without interlocking, after any history. -/
theorem c16_cont {tau : K} {c0 : CConv K} (hc : CConv.Fresh tau 0 c0) (ops : List (COp K)) (i : List K) (t : K)
    (hi : i.length = c0.dim) (hone : (∃ d, c0 = .one d) → ∀ x ∈ i, 0 ≤ x) :
    ∃ us, (c0.run ops).convert i t = .ok us ∧ (c0.run ops).iSup i = .ok (dot us i + cStarPoint c0 i) := by
  have hw := (CConv.WF.fresh hc).run ops
  have hk := c0.run_sameKind ops
  generalize c0.run ops = c at *
  have h01 : (0 : K) ≤ 1 := zero_le_one
  cases c0 with
  | one d0 =>
    obtain ⟨d, rfl⟩ := hk
    obtain ⟨x, rfl⟩ := List.length_eq_one_iff.1 hi
    have hx : 0 ≤ x := hone ⟨_, rfl⟩ x (by simp)
    refine ⟨_, rfl, ?_⟩
    simp only [CConv.iSup, COne.iSup, hx, if_true, sub_zero, clip_of_mem hw.1 hw.2, dot, cStarPoint, add_zero]
  | two d0 =>
    obtain ⟨d, rfl⟩ := hk
    obtain ⟨x, rfl⟩ := List.length_eq_one_iff.1 hi
    have hw' : d.WF 0 := hw
    refine ⟨_, CTwo.convert_noil hw' x [] t, ?_⟩
    simp only [CConv.iSup, CTwo.iSup_noil hw', dot, cStarPoint, add_zero]
  | four d0 =>
    obtain ⟨d, rfl⟩ := hk
    obtain ⟨x, rfl⟩ := List.length_eq_one_iff.1 hi
    have hw0 : d.sub0.WF 0 ∧ d.sub1.WF 0 := by
      rcases hw with h | ⟨h1, h2, h3, h4⟩
      · exact ⟨h.1, h.2.1⟩
      · exact ⟨⟨h1.ge, h1.le.trans h01, h3⟩, ⟨h2.ge, h2.le.trans h01, h4⟩⟩
    refine ⟨[d.sub0.action - d.sub1.action], ?_, ?_⟩
    · simp only [CConv.convert, CFour.convert, CTwo.convert_noil hw0.1, CTwo.convert_noil hw0.2]
    · simp only [CConv.iSup, CFour.iSup, CTwo.iSup_noil hw0.1, CTwo.iSup_noil hw0.2, dot, cStarPoint, add_zero]
      congr 1; ring
  | b6 d0 =>
    obtain ⟨d, rfl⟩ := hk
    obtain ⟨x, y, z, rfl⟩ := List.length_eq_three.1 hi
    have hw' : d.s0.WF 0 ∧ d.s1.WF 0 ∧ d.s2.WF 0 := hw
    refine ⟨[d.s0.action - 1 / 2, d.s1.action - 1 / 2, d.s2.action - 1 / 2], ?_, ?_⟩
    · simp only [CConv.convert, CB6.convert, CTwo.convert_noil hw'.1, CTwo.convert_noil hw'.2.1,
        CTwo.convert_noil hw'.2.2]
    · simp only [CConv.iSup, CB6.iSup, sumZip, CTwo.iSup_noil hw'.1, CTwo.iSup_noil hw'.2.1,
        CTwo.iSup_noil hw'.2.2, dot, cStarPoint, List.sum_cons, List.sum_nil]
      congr 1; ring

/-- Non-vacuity of C16: a four-quadrant converter, action 2 (negative voltage), positive current. -/
example : let c := ((FConv.four (FourQC.new (1 : ℚ) 0)).setAction 2 0).1
    (c.convert [3] 0).2 = .ok [-1] ∧ (c.convert [3] 0).1.iSup [3] = .ok (-3) := by
  simp [FConv.convert, FConv.setAction, FourQC.setAction, FourQC.convert, FourQC.new, TwoQC.new, TwoQC.setAction,
    TwoQC.convert, fourAction0, fourAction1, FConv.iSup, FourQC.iSup, TwoQC.iSup]

/-! ## C17 Switching commands produce the documented levels -/

/-- The moment from which the commanded position is applied: at once without interlocking, otherwise when the
interlocking time (and the safety margin tau/1000, converters.py 274) is over. -/
def Settled (tau il t t' : K) : Prop := il = 0 ∨ t' - tau / 1000 > t + il

/-- Output of an ideal half bridge in position `a` carrying the current `x`: upper switch closed 1, lower switch
closed 0, both open: the freewheeling diode conducts. -/
def halfBridge (a : ℕ) (x : K) : K := if a = 1 then 1 else if a = 2 then 0 else if x < 0 then 1 else 0

theorem two_settled (c : TwoQC K) (a : ℕ) (ha : a < 3) (t t' : K) (x : K) (l : List K)
    (hs : Settled c.tau c.il t t') :
    ((c.setAction a t).1.convert (x :: l) t').2 = .ok [halfBridge a x] := by
  have key : ∀ d : TwoQC K, (if t' - d.tau / 1000 > d.start + d.il then d.pattern.getLast? else d.pattern.head?)
      = some a → (d.convert (x :: l) t').2 = .ok [halfBridge a x] := by
    intro d hd
    unfold TwoQC.convert
    rw [hd]
    interval_cases a <;> simp [halfBridge]
  apply key
  unfold TwoQC.setAction
  rw [if_pos ha]
  split
  · simp
  · rename_i hc
    push Not at hc
    rcases hs with h | h
    · exact absurd h hc.2.2.2
    · simp [h]

/-- C17, two-quadrant converter: 1 ↦ 1, 2 ↦ 0, 0 ↦ freewheeling by the sign of the current; from any previous state. -/
theorem c17_two (c : TwoQC K) (t t' x : K) (hs : Settled c.tau c.il t t') :
    ((c.setAction 1 t).1.convert [x] t').2 = .ok [1] ∧ ((c.setAction 2 t).1.convert [x] t').2 = .ok [0] ∧
    ((c.setAction 0 t).1.convert [x] t').2 = .ok [if x < 0 then 1 else 0] :=
  ⟨by simpa [halfBridge] using two_settled c 1 (by norm_num) t t' x [] hs,
    by simpa [halfBridge] using two_settled c 2 (by norm_num) t t' x [] hs,
    by simpa [halfBridge] using two_settled c 0 (by norm_num) t t' x [] hs⟩

/-- Documented levels of the four-quadrant converter. -/
def fourLevel : ℕ → ℤ
  | 1 => 1
  | 2 => -1
  | _ => 0

/-- C17, four-quadrant converter: levels (0, 1, -1, 0), whatever the current and the previous state. -/
theorem c17_four (c : FourQC K) (a : ℕ) (ha : a < 4) (t t' x : K) (hs0 : Settled c.sub0.tau c.sub0.il t t')
    (hs1 : Settled c.sub1.tau c.sub1.il t t') :
    ((c.setAction a t).1.convert [x] t').2 = .ok [(fourLevel a : K)] := by
  obtain ⟨t0, t1, -, -, he⟩ := c.setAction_eq ha t
  have h0 := two_settled c.sub0 (fourAction0 a) (fourAction_lt a).1 t t' x [] hs0
  have h1 := two_settled c.sub1 (fourAction1 a) (fourAction_lt a).2 t t' (-x) [] hs1
  rw [he]
  simp only [FourQC.convert, h0, h1]
  interval_cases a <;> simp [fourLevel, halfBridge, fourAction0, fourAction1]

/-- C17, B6 bridge: bits 2, 1, 0 of the action are the signs of `u_a`, `u_b`, `u_c`; hence one-to-one. -/
theorem c17_b6 (c : B6 K) (a : ℕ) (ha : a < 8) (t t' x y z : K) (hs0 : Settled c.s0.tau c.s0.il t t')
    (hs1 : Settled c.s1.tau c.s1.il t t') (hs2 : Settled c.s2.tau c.s2.il t t') :
    ((c.setAction a t).1.convert [x, y, z] t').2 = .ok [if a.testBit 2 then 1 / 2 else -1 / 2,
      if a.testBit 1 then 1 / 2 else -1 / 2, if a.testBit 0 then 1 / 2 else -1 / 2] := by
  obtain ⟨t0, t1, t2, -, -, -, he⟩ := c.setAction_eq ha t
  have h0 := two_settled c.s0 (b6Sub a).1 (b6Sub_lt a).1 t t' x [] hs0
  have h1 := two_settled c.s1 (b6Sub a).2.1 (b6Sub_lt a).2.1 t t' y [] hs1
  have h2 := two_settled c.s2 (b6Sub a).2.2 (b6Sub_lt a).2.2 t t' z [] hs2
  rw [he]
  simp only [B6.convert, h0, h1, h2]
  have e1 : (1 : K) - 1 / 2 = 1 / 2 := by ring
  have e2 : (0 : K) - 1 / 2 = -1 / 2 := by ring
  interval_cases a <;> simp [b6Sub, halfBridge, Nat.testBit] <;> norm_num

/-- C17: distinct actions of the B6 bridge give distinct output patterns. -/
theorem c17_b6_injective (c : B6 K) (a b : ℕ) (ha : a < 8) (hb : b < 8) (t t' x y z : K)
    (hs0 : Settled c.s0.tau c.s0.il t t') (hs1 : Settled c.s1.tau c.s1.il t t')
    (hs2 : Settled c.s2.tau c.s2.il t t')
    (h : ((c.setAction a t).1.convert [x, y, z] t').2 = ((c.setAction b t).1.convert [x, y, z] t').2) : a = b := by
  rw [c17_b6 c a ha t t' x y z hs0 hs1 hs2, c17_b6 c b hb t t' x y z hs0 hs1 hs2] at h
  have hne : (1 / 2 : K) ≠ -1 / 2 := by
    intro h; have : (1 : K) = 0 := by linarith
    exact one_ne_zero this
  simp only [Except.ok.injEq, List.cons.injEq, and_true] at h
  have key : ∀ p q : Bool, (if p then (1 / 2 : K) else -1 / 2) = (if q then 1 / 2 else -1 / 2) → p = q := by
    intro p q hpq
    cases p <;> cases q <;> simp_all
  have k2 := key _ _ h.1
  have k1 := key _ _ h.2.1
  have k0 := key _ _ h.2.2
  interval_cases a <;> interval_cases b <;> simp_all [Nat.testBit]

example : Settled (1 : ℚ) (1/4) 0 (1/2) := by right; norm_num

/-! ## C61 A commanded change-over takes effect inside the control interval -/

/-- C61 is violated: the physical system calls `convert` at the beginning of each segment, that is at `t` and at the
switching time `t + il` (physical_systems.py 182–199). At `t + il` the half bridge still takes the first element of
the pattern (converters.py 274 asks for *more* than `start + il + tau/1000`), so after an interlocked change-over both
switches stay open for the whole interval, not only for the interlocking time. -/
theorem c61_changeover_violated (c : TwoQC K) (a : ℕ) (ha : a < 3) (ha0 : a ≠ 0) (hst : c.state ≠ 0)
    (hne : a ≠ c.state) (hil : 0 < c.il) (htau : 0 ≤ c.tau) (t : K) (i0 i1 : List K) :
    -- announced switching times
    (c.setAction a t).2 = .ok [t + c.il, t + c.tau] ∧
    -- the two convert calls of the physical system
    ((c.setAction a t).1.convert i0 t).1.state = 0 ∧
    (((c.setAction a t).1.convert i0 t).1.convert i1 (t + c.il)).1.state = 0 := by
  have hcase : ¬ (a = 0 ∨ c.state = 0 ∨ a = c.state ∨ c.il = 0) := by
    push Not; exact ⟨ha0, hst, hne, hil.ne'⟩
  have e : c.setAction a t = ({ c with start := t, action := a, pattern := [0, a] },
      .ok [t + c.il, t + c.tau]) := by
    unfold TwoQC.setAction; rw [if_pos ha, if_neg hcase]
  rw [e]
  have hd : 0 ≤ c.tau / 1000 := by positivity
  refine ⟨rfl, ?_, ?_⟩
  · rw [TwoQC.convert_pair rfl, if_neg]
    simp only; linarith
  · rw [TwoQC.convert_pair (c := ((({ c with start := t, action := a, pattern := [0, a] } : TwoQC K).convert i0 t).1))
      (a := a) (by rw [TwoQC.convert_pair rfl])]
    rw [TwoQC.convert_pair rfl]
    simp only
    rw [if_neg (by linarith)]

/-- What does hold: if the action is kept, it is applied at the start of the next interval. -/
theorem c61_changeover_partial (c : TwoQC K) (a : ℕ) (ha : a < 3) (hst : c.state = 0) (t : K) (i : List K) :
    ((c.setAction a t).1.convert i t).1.state = a := by
  have hcase : (a = 0 ∨ c.state = 0 ∨ a = c.state ∨ c.il = 0) := by simp [hst]
  have e : (c.setAction a t).1 = { c with start := t, action := a, pattern := [a] } := by
    unfold TwoQC.setAction; rw [if_pos ha, if_pos hcase]
  rw [e, TwoQC.convert_single rfl]

example : ∃ c : TwoQC ℚ, c.state = 1 ∧ 0 < c.il ∧ 0 < c.tau := ⟨⟨1, 1/4, 0, 1, [1], 1⟩, by norm_num⟩

/-! ## C18 Multi converters are independent products -/

/-- C18, output: feeding the concatenated currents gives the concatenated outputs, and each sub-converter ends in the
state it would have if driven alone. -/
theorem c18_convert (l : List (FConv K × List K × List K)) (t : K)
    (h : ∀ p ∈ l, p.2.1.length = p.1.dim ∧ (p.1.convert p.2.1 t).2 = .ok p.2.2) :
    multiConvert (l.map (·.1)) (l.flatMap (·.2.1)) t =
      (l.map (fun p => (p.1.convert p.2.1 t).1), .ok (l.flatMap (·.2.2))) := by
  induction l with
  | nil => rfl
  | cons p l ih =>
    obtain ⟨c, i, us⟩ := p
    obtain ⟨h1, h2⟩ := h _ (List.mem_cons_self)
    simp only at h1 h2
    simp only [List.map_cons, List.flatMap_cons, multiConvert]
    rw [List.take_left' h1, List.drop_left' h1, h2]
    simp only
    rw [ih (fun q hq => h q (by simp [hq]))]

/-- C18, supply current: the sum of the individual supply currents. -/
theorem c18_iSup (l : List (FConv K × List K × K))
    (h : ∀ p ∈ l, p.2.1.length = p.1.dim ∧ p.1.iSup p.2.1 = .ok p.2.2) :
    multiISup (l.map (·.1)) (l.flatMap (·.2.1)) = .ok ((l.map (·.2.2)).sum) := by
  induction l with
  | nil => rfl
  | cons p l ih =>
    obtain ⟨c, i, us⟩ := p
    obtain ⟨h1, h2⟩ := h _ (List.mem_cons_self)
    simp only at h1 h2
    simp only [List.map_cons, List.flatMap_cons, multiISup, List.sum_cons]
    rw [List.take_left' h1, List.drop_left' h1, h2, ih (fun q hq => h q (by simp [hq]))]

/-- C18, actions: every sub-converter receives exactly its own action, and the announced switching times are the union
of the individual ones. -/
theorem c18_setAction (l : List (FConv K × ℕ × List K)) (t : K)
    (h : ∀ p ∈ l, (p.1.setAction p.2.1 t).2 = .ok p.2.2) :
    multiSetAction (l.map (·.1)) (l.map (·.2.1)) t =
      (l.map (fun p => (p.1.setAction p.2.1 t).1), .ok (sortedSet (l.flatMap (·.2.2)))) := by
  have : multiSetActionAux (l.map (·.1)) (l.map (·.2.1)) t =
      (l.map (fun p => (p.1.setAction p.2.1 t).1), .ok (l.flatMap (·.2.2))) := by
    induction l with
    | nil => rfl
    | cons p l ih =>
      obtain ⟨c, a, ts⟩ := p
      have h2 := h _ (List.mem_cons_self)
      simp only at h2
      simp only [List.map_cons, List.flatMap_cons, multiSetActionAux, h2]
      rw [ih (fun q hq => h q (by simp [hq]))]
  simp only [multiSetAction, this]

/-- C18, independence: changing the action of one sub-converter changes no other sub-converter (states and therefore
outputs), for arbitrary positions and histories. -/
theorem c18_independent (l : List (FConv K × ℕ × List K)) (t : K) (k : ℕ) (a' : ℕ) (ts' : List K)
    (h : ∀ p ∈ l, (p.1.setAction p.2.1 t).2 = .ok p.2.2)
    (h' : ∀ p, l[k]? = some p → (p.1.setAction a' t).2 = .ok ts') (j : ℕ) (hj : j ≠ k) :
    ((multiSetAction (l.map (·.1)) ((l.map (·.2.1)).set k a') t).1)[j]? =
      ((multiSetAction (l.map (·.1)) (l.map (·.2.1)) t).1)[j]? := by
  by_cases hk : k < l.length
  · set l' := l.set k ((l[k]).1, a', ts') with hl'
    have e1 : l'.map (·.1) = l.map (·.1) := by
      rw [hl', List.map_set]
      apply List.ext_getElem? ; intro n
      by_cases hn : n = k
      · subst hn; simp [hk]
      · rw [List.getElem?_set_ne (Ne.symm hn)]
    have e2 : l'.map (·.2.1) = (l.map (·.2.1)).set k a' := by rw [hl', List.map_set]
    have hall : ∀ p ∈ l', (p.1.setAction p.2.1 t).2 = .ok p.2.2 := by
      intro p hp
      rcases List.mem_or_eq_of_mem_set hp with hp | hp
      · exact h p hp
      · subst hp; exact h' l[k] (List.getElem?_eq_getElem hk)
    rw [← e2, ← e1, c18_setAction l' t hall, e1, c18_setAction l t h, hl']
    simp only [List.getElem?_map, List.getElem?_set_ne (Ne.symm hj)]
  · rw [List.set_eq_of_length_le (by simpa using hk)]

/-- Non-vacuity of C18: a four-quadrant converter and a two-quadrant converter. -/
example : ∃ ts, (multiSetAction [FConv.four (FourQC.new (1 : ℚ) 0), .two (TwoQC.new 1 0)] [1, 2] 0).2 = .ok ts ∧
    (multiConvert (multiSetAction [FConv.four (FourQC.new (1 : ℚ) 0), .two (TwoQC.new 1 0)] [1, 2] 0).1
      [5, -5] 0).2 = .ok [1, 0] := by
  simp [multiSetAction, multiSetActionAux, multiConvert, FConv.setAction, FConv.convert, FourQC.setAction,
    FourQC.convert, FourQC.new, TwoQC.new, TwoQC.setAction, TwoQC.convert, fourAction0, fourAction1, FConv.dim]

/-- C18 for continuous converters, actions: every sub-converter receives exactly its own slice of the action, and the
announced switching times are the union of the individual ones. -/
theorem c18_cont_setAction (l : List (CConv K × List K × List K)) (t : K)
    (h : ∀ p ∈ l, p.2.1.length = p.1.dim ∧ (p.1.setAction p.2.1 t).2 = .ok p.2.2) :
    cMultiSetAction (l.map (·.1)) (l.flatMap (·.2.1)) t =
      (l.map (fun p => (p.1.setAction p.2.1 t).1), .ok (sortedSet (l.flatMap (·.2.2)))) := by
  have : cMultiSetActionAux (l.map (·.1)) (l.flatMap (·.2.1)) t =
      (l.map (fun p => (p.1.setAction p.2.1 t).1), .ok (l.flatMap (·.2.2))) := by
    induction l with
    | nil => rfl
    | cons p l ih =>
      obtain ⟨c, a, ts⟩ := p
      obtain ⟨h1, h2⟩ := h _ (List.mem_cons_self)
      simp only at h1 h2
      simp only [List.map_cons, List.flatMap_cons, cMultiSetActionAux]
      rw [List.take_left' h1, List.drop_left' h1, h2]
      simp only
      rw [ih (fun q hq => h q (by simp [hq]))]
  simp only [cMultiSetAction, this]

/-- C18 for continuous converters, output voltages: the concatenation of the individual ones. -/
theorem c18_cont_convert (l : List (CConv K × List K × List K)) (t : K)
    (h : ∀ p ∈ l, p.2.1.length = p.1.dim ∧ p.1.convert p.2.1 t = .ok p.2.2) :
    cMultiConvert (l.map (·.1)) (l.flatMap (·.2.1)) t = .ok (l.flatMap (·.2.2)) := by
  induction l with
  | nil => rfl
  | cons p l ih =>
    obtain ⟨c, i, us⟩ := p
    obtain ⟨h1, h2⟩ := h _ (List.mem_cons_self)
    simp only at h1 h2
    simp only [List.map_cons, List.flatMap_cons, cMultiConvert]
    rw [List.take_left' h1, List.drop_left' h1, h2, ih (fun q hq => h q (by simp [hq]))]

/-- C18 for continuous converters, supply current: the sum of the individual supply currents. -/
theorem c18_cont_iSup (l : List (CConv K × List K × K))
    (h : ∀ p ∈ l, p.2.1.length = p.1.dim ∧ p.1.iSup p.2.1 = .ok p.2.2) :
    cMultiISup (l.map (·.1)) (l.flatMap (·.2.1)) = .ok ((l.map (·.2.2)).sum) := by
  induction l with
  | nil => rfl
  | cons p l ih =>
    obtain ⟨c, i, us⟩ := p
    obtain ⟨h1, h2⟩ := h _ (List.mem_cons_self)
    simp only at h1 h2
    simp only [List.map_cons, List.flatMap_cons, cMultiISup, List.sum_cons]
    rw [List.take_left' h1, List.drop_left' h1, h2, ih (fun q hq => h q (by simp [hq]))]

/-- Non-vacuity: a B6 bridge and a two-quadrant converter (the exciter of an EESM). -/
example : ∃ ts, (cMultiSetAction [CConv.b6 (CB6.new (1 : ℚ) 0), .two (CTwo.new 1 0)] [1, 0, -1, 1 / 4] 0).2 = .ok ts ∧
    cMultiConvert (cMultiSetAction [CConv.b6 (CB6.new (1 : ℚ) 0), .two (CTwo.new 1 0)] [1, 0, -1, 1 / 4] 0).1
      [1, 1, -2, 3] 0 = .ok [1 / 2, 0, -(1 / 2), 1 / 4] := by
  norm_num [cMultiSetAction, cMultiSetActionAux, cMultiConvert, CConv.setAction, CConv.convert, CB6.setAction,
    CB6.convert, CB6.new, CTwo.new, CTwo.setAction, CTwo.convert, CTwo.interlock, clip, CConv.dim]

/-! ## C19 Converter reset forgets the past -/

/-- C19 is violated: the switching state of a half bridge survives `reset`. A converter used before (action 1) and a
fresh one, both reset and then driven identically, differ in switching times, in output voltage and in supply current. -/
theorem c19_reset_forgets_violated :
    ∃ (c : FConv ℚ) (ops : List (FOp ℚ)), FConv.Fresh 1 (1/4) c ∧
      ((c.run ops).reset.1.setAction 2 0).2 ≠ (c.reset.1.setAction 2 0).2 ∧
      (((c.run ops).reset.1.setAction 2 0).1.convert [-1] 0).2 ≠ ((c.reset.1.setAction 2 0).1.convert [-1] 0).2 ∧
      (c.run ops).reset.1.iSup [1] ≠ c.reset.1.iSup [1] := by
  refine ⟨.two (TwoQC.new 1 (1/4)), [.setAction 1 0, .convert [1] 0], .two _ _, ?_, ?_, ?_⟩ <;>
  · simp [FConv.run, FConv.step, FConv.convert, FConv.setAction, FConv.reset, FConv.iSup, TwoQC.setAction,
      TwoQC.convert, TwoQC.new, TwoQC.reset, TwoQC.iSup]
    try norm_num

/-- C19, what holds for finite converters: without interlocking, once the first action after the reset has been applied
the half bridge is in the same state as any other half bridge of the same configuration, so all later outputs agree.
(Missing: interlocking times > 0, and the supply current asked for before the first `convert`.) -/
theorem c19_two_partial (c d : TwoQC K) (hcfg : c.tau = d.tau) (hc : c.il = 0) (hd : d.il = 0)
    (a : ℕ) (ha : a < 3) (t t' : K) (i : List K) :
    (c.reset.1.setAction a t).1.convert i t' = (d.reset.1.setAction a t).1.convert i t' ∧
    (c.reset.1.setAction a t).2 = (d.reset.1.setAction a t).2 := by
  have key : ∀ e : TwoQC K, e.il = 0 →
      e.reset.1.setAction a t = ({ e with start := t, action := a, pattern := [a] }, .ok [t + e.tau]) := by
    intro e he
    unfold TwoQC.setAction TwoQC.reset
    rw [if_pos ha, if_pos (by simp [he])]
  rw [key c hc, key d hd]
  refine ⟨?_, by simp [hcfg]⟩
  unfold TwoQC.convert
  simp [hcfg, hc, hd]

/-- C19 holds for the one-quadrant converter and all continuous converters: the reset object does not depend on the
history at all. -/
theorem c19_cont (c : CConv K) (ops : List (COp K))
    (hops : ∀ op ∈ ops, ∀ v, op ≠ .setTau v) : (c.run ops).reset = c.reset := by
  induction ops using List.reverseRecOn with
  | nil => rfl
  | append_singleton l op ih =>
    have ih := ih (fun o ho => hops o (by simp [ho]))
    simp only [CConv.run, List.foldl_append, List.foldl_cons, List.foldl_nil] at ih ⊢
    rw [← ih]
    generalize List.foldl CConv.step c l = d
    cases op with
    | setTau v => exact absurd rfl (hops (.setTau v) (by simp) v)
    | reset => cases d <;> rfl
    | setAction a t =>
      cases d with
      | one d => match a with
        | [] => rfl
        | [_] => rfl
        | _ :: _ :: _ => rfl
      | two d => match a with
        | [] => rfl
        | [_] => rfl
        | _ :: _ :: _ => rfl
      | four d => match a with
        | [] => rfl
        | [_] => rfl
        | _ :: _ :: _ => rfl
      | b6 d => match a with
        | [] => rfl
        | [_] => rfl
        | [_, _] => rfl
        | _ :: _ :: _ :: _ => rfl

/-- C19, one-quadrant converter. -/
theorem c19_one (tau : K) (ops : List (FOp K)) (hops : ∀ op ∈ ops, ∀ v, op ≠ .setTau v) :
    ((FConv.one (OneQC.new tau)).run ops).reset = (FConv.one (OneQC.new tau)).reset := by
  have : ∃ d : OneQC K, (FConv.one (OneQC.new tau)).run ops = .one d ∧ d.tau = tau := by
    induction ops using List.reverseRecOn with
    | nil => exact ⟨_, rfl, rfl⟩
    | append_singleton l op ih =>
      obtain ⟨d, hd, ht⟩ := ih (fun o ho => hops o (by simp [ho]))
      simp only [FConv.run, List.foldl_append, List.foldl_cons, List.foldl_nil] at hd ⊢
      rw [hd]
      cases op with
      | setTau v => exact absurd rfl (hops (.setTau v) (by simp) v)
      | reset => exact ⟨_, rfl, ht⟩
      | setAction a t =>
        refine ⟨(d.setAction a t).1, rfl, ?_⟩
        unfold OneQC.setAction; split <;> exact ht
      | convert i t =>
        refine ⟨(d.convert i t).1, rfl, ?_⟩
        cases i <;> exact ht
  obtain ⟨d, hd, ht⟩ := this
  rw [hd]
  simp [FConv.reset, OneQC.reset, OneQC.new, ht]

/-! ## C20 The sampling time given to the system reaches every switch -/

/-- C20 is violated for the bridges, in effect and not only in bookkeeping: a continuous B6 bridge whose sampling time
is set to `tau'` still computes its interlocking loss with the sampling time of its construction. -/
theorem c20_tau_violated :
    ∃ (tau tau' il : ℚ) (i : List ℚ), 0 < il ∧ il < tau ∧ il < tau' ∧
      (((CConv.b6 (CB6.new tau il)).setTau tau').setAction [0, 0, 0] 0).1.convert i 0
        ≠ ((CConv.b6 (CB6.new tau' il)).setAction [0, 0, 0] 0).1.convert i 0 := by
  refine ⟨1, 2, 1/4, [1, 1, 1], by norm_num, by norm_num, by norm_num, ?_⟩
  simp [CConv.setTau, CConv.setAction, CConv.convert, CB6.new, CTwo.new, CB6.setAction, CB6.convert, CTwo.setAction,
    CTwo.convert, CTwo.interlock, clip]
  norm_num

/-- C20 holds for the one- and two-quadrant converters and for multi converters made of them: setting the sampling time
is the same as constructing with it. -/
theorem c20_elementary_partial (tau tau' il : K) :
    (FConv.one (OneQC.new tau)).setTau tau' = .one (OneQC.new tau') ∧
    (FConv.two (TwoQC.new tau il)).setTau tau' = .two (TwoQC.new tau' il) ∧
    (CConv.one (COne.new tau)).setTau tau' = .one (COne.new tau') ∧
    (CConv.two (CTwo.new tau il)).setTau tau' = .two (CTwo.new tau' il) :=
  ⟨rfl, rfl, rfl, rfl⟩

/-- C20 at any later time: from then on every half bridge of a two-quadrant converter (alone or in a multi converter)
announces `t + tau'` as the end of the interval. -/
theorem c20_multi_partial (cs : List (FConv K)) (tau' : K) (a : ℕ) (t : K) (ts : List K) :
    ∀ c ∈ multiSetTau cs tau', (∃ d, c = .one d) ∨ (∃ d, c = .two d) → (c.setAction a t).2 = .ok ts →
      ts.getLast? = some (t + tau') := by
  intro c hc hk hts
  simp only [multiSetTau, List.mem_map] at hc
  obtain ⟨c0, -, rfl⟩ := hc
  cases c0 with
  | one d =>
    simp only [FConv.setTau, FConv.setAction, OneQC.setAction, Prod.map, id] at hts
    split at hts
    · simp only [Except.ok.injEq] at hts; subst hts; rfl
    · simp at hts
  | two d =>
    simp only [FConv.setTau, FConv.setAction, TwoQC.setAction, Prod.map, id] at hts
    split at hts
    · split at hts
      · simp only [Except.ok.injEq] at hts; subst hts; rfl
      · simp only [Except.ok.injEq] at hts; subst hts; rfl
    · simp at hts
  | four d => rcases hk with ⟨e, he⟩ | ⟨e, he⟩ <;> simp [FConv.setTau] at he
  | b6 d => rcases hk with ⟨e, he⟩ | ⟨e, he⟩ <;> simp [FConv.setTau] at he

/-! ## C21 Out-of-range continuous actions saturate -/

/-- C21: an arbitrary action has exactly the effect of the action clipped to the action space. -/
theorem c21_saturates (c : CConv K) (a : List K) (ha : a.length = c.dim) (t : K) :
    c.setAction a t = c.setAction (a.map (fun x => min (max x c.aLow) c.aHigh)) t := by
  have hcl : ∀ x : K, clip (min (max x 0) 1) 0 1 = clip x 0 1 := by
    intro x
    have := clip_mem (x := x) (zero_le_one (α := K))
    exact clip_of_mem this.1 this.2
  cases c with
  | one c =>
    obtain ⟨x, rfl⟩ := List.length_eq_one_iff.1 ha
    simp [CConv.setAction, COne.setAction, CConv.aLow, CConv.aHigh, hcl]
  | two c =>
    obtain ⟨x, rfl⟩ := List.length_eq_one_iff.1 ha
    simp [CConv.setAction, CTwo.setAction, CConv.aLow, CConv.aHigh, hcl]
  | four c =>
    obtain ⟨x, rfl⟩ := List.length_eq_one_iff.1 ha
    have h1 := clip_half x
    have h2 := clip_half' x
    simp only [clip] at h1 h2
    simp only [CConv.setAction, CFour.setAction, CTwo.setAction, CConv.aLow, CConv.aHigh, List.map_cons,
      List.map_nil, clip, h1, h2]
  | b6 c =>
    obtain ⟨x, y, z, rfl⟩ := List.length_eq_three.1 ha
    have h1 := clip_half x
    have h2 := clip_half y
    have h3 := clip_half z
    simp only [clip] at h1 h2 h3
    simp only [CConv.setAction, CB6.setAction, CTwo.setAction, CConv.aLow, CConv.aHigh, List.map_cons,
      List.map_nil, clip, h1, h2, h3]

/-- Output per unit of action: the B6 bridge refers its outputs to the midpoint of the DC link. -/
def gain : CConv K → K
  | .b6 _ => 1 / 2
  | _ => 1

/-- C21: inside the action space and without interlocking the averaged output is the duty cycle. -/
theorem c21_duty {tau : K} {c0 : CConv K} (hc : CConv.Fresh tau 0 c0) (ops : List (COp K)) (a i : List K)
    (ha : a.length = c0.dim) (hi : i.length = c0.dim) (hbox : ∀ x ∈ a, c0.aLow ≤ x ∧ x ≤ c0.aHigh)
    (hone : (∃ d, c0 = .one d) → ∀ x ∈ i, 0 ≤ x) (t t' : K) :
    ((c0.run ops).setAction a t).1.convert i t' = .ok (a.map (gain c0 * ·)) := by
  have hw := (CConv.WF.fresh hc).run ops
  have hk := c0.run_sameKind ops
  generalize c0.run ops = c at *
  cases c0 with
  | one d0 =>
    obtain ⟨d, rfl⟩ := hk
    obtain ⟨x, rfl⟩ := List.length_eq_one_iff.1 ha
    obtain ⟨j, rfl⟩ := List.length_eq_one_iff.1 hi
    have hj : 0 ≤ j := hone ⟨_, rfl⟩ j (by simp)
    obtain ⟨h1, h2⟩ := hbox x (by simp)
    have e := clip_of_mem h1 h2
    simp only [CConv.aLow, CConv.aHigh] at e h1 h2
    simp [CConv.setAction, COne.setAction, CConv.convert, COne.convert, hj, gain, e]
  | two d0 =>
    obtain ⟨d, rfl⟩ := hk
    obtain ⟨x, rfl⟩ := List.length_eq_one_iff.1 ha
    obtain ⟨j, rfl⟩ := List.length_eq_one_iff.1 hi
    obtain ⟨h1, h2⟩ := hbox x (by simp)
    have e := clip_of_mem h1 h2
    simp only [CConv.aLow, CConv.aHigh] at e h1 h2
    have hw' : (d.setAction [x] t).1.WF 0 := CTwo.WF.set (show d.WF 0 from hw).2.2 x t
    simp only [CConv.setAction, Prod.map, CConv.convert]
    rw [CTwo.convert_noil hw']
    simp [CTwo.setAction, gain, e]
  | four d0 =>
    obtain ⟨d, rfl⟩ := hk
    obtain ⟨x, rfl⟩ := List.length_eq_one_iff.1 ha
    obtain ⟨j, rfl⟩ := List.length_eq_one_iff.1 hi
    obtain ⟨h1, h2⟩ := hbox x (by simp)
    simp only [CConv.aLow, CConv.aHigh] at h1 h2
    have hil : d.sub0.il = 0 ∧ d.sub1.il = 0 := by
      rcases hw with h | h
      · exact ⟨h.1.2.2, h.2.1.2.2⟩
      · exact h.2.2
    have e0 : clip (1 / 2 * (x + 1)) 0 1 = 1 / 2 * (x + 1) := clip_of_mem (by linarith) (by linarith)
    have e1 : clip (-(1 / 2) * (x - 1)) 0 1 = -(1 / 2) * (x - 1) := clip_of_mem (by linarith) (by linarith)
    simp only [CConv.setAction, Prod.map, CConv.convert, CFour.setAction, CFour.convert]
    rw [CTwo.convert_noil (CTwo.WF.set hil.1 _ t), CTwo.convert_noil (CTwo.WF.set hil.2 _ t)]
    simp only [CTwo.setAction, e0, e1, gain, List.map_cons, List.map_nil]
    congr 2; ring
  | b6 d0 =>
    obtain ⟨d, rfl⟩ := hk
    obtain ⟨x, y, z, rfl⟩ := List.length_eq_three.1 ha
    obtain ⟨j, k, l, rfl⟩ := List.length_eq_three.1 hi
    have hw' : d.s0.WF 0 ∧ d.s1.WF 0 ∧ d.s2.WF 0 := hw
    have key : ∀ v ∈ [x, y, z], clip (1 / 2 * (v + 1)) 0 1 = 1 / 2 * (v + 1) := by
      intro v hv
      obtain ⟨h1, h2⟩ := hbox v hv
      simp only [CConv.aLow, CConv.aHigh] at h1 h2
      exact clip_of_mem (by linarith) (by linarith)
    have ex := key x (by simp)
    have ey := key y (by simp)
    have ez := key z (by simp)
    simp only [CConv.setAction, Prod.map, CConv.convert, CB6.setAction, CB6.convert]
    rw [CTwo.convert_noil (CTwo.WF.set hw'.1.2.2 _ t), CTwo.convert_noil (CTwo.WF.set hw'.2.1.2.2 _ t),
      CTwo.convert_noil (CTwo.WF.set hw'.2.2.2.2 _ t)]
    simp only [CTwo.setAction, ex, ey, ez, gain, List.map_cons, List.map_nil]
    congr 2
    · ring
    · congr 1
      · ring
      · congr 1; ring

/-- Non-vacuity of C21: an out-of-range action on a four-quadrant converter. -/
example : ((CConv.four (CFour.new (1 : ℚ) 0)).setAction [7/2] 0).1.convert [1] 0 = .ok [1] := by
  simp [CConv.setAction, CConv.convert, CFour.new, CTwo.new, CFour.setAction, CFour.convert, CTwo.setAction,
    CTwo.convert, CTwo.interlock, clip]
  norm_num

/-! ## C62 Interlocking never creates energy -/

/-- C62 for the two-quadrant converter and the B6 bridge, after any history: output power plus star-point term is at
most the supply power, for every interlocking time up to the sampling time of the half bridges. -/
theorem c62_passive_partial {tau il : K} (htau : 0 < tau) (h0 : 0 ≤ il) (h1 : il ≤ tau) (c0 : CConv K)
    (hc : c0 = .two (CTwo.new tau il) ∨ c0 = .b6 (CB6.new tau il)) (ops : List (COp K))
    (hops : ∀ op ∈ ops, ∀ v, op ≠ .setTau v) (i : List K) (hi : i.length = c0.dim) (t : K) :
    ∃ us p, (c0.run ops).convert i t = .ok us ∧ (c0.run ops).iSup i = .ok p ∧ dot us i + cStarPoint c0 i ≤ p := by
  have hd0 : 0 ≤ il / tau := div_nonneg h0 htau.le
  have hd1 : il / tau ≤ 1 := (div_le_one htau).2 h1
  have hf : CConv.Fresh tau il c0 := by rcases hc with rfl | rfl <;> constructor
  have hw := (CConv.WF.fresh hf).run ops
  rcases hc with rfl | rfl
  · have hk : ∃ d, (CConv.two (CTwo.new tau il)).run ops = .two d ∧ d.tau = tau := by
      clear hw hf hi
      induction ops using List.reverseRecOn with
      | nil => exact ⟨_, rfl, rfl⟩
      | append_singleton l op ih =>
        obtain ⟨d, hd, ht⟩ := ih (fun o ho => hops o (by simp [ho]))
        simp only [CConv.run, List.foldl_append, List.foldl_cons, List.foldl_nil] at hd ⊢
        rw [hd]
        cases op with
        | setTau v => exact absurd rfl (hops (.setTau v) (by simp) v)
        | reset => exact ⟨_, rfl, ht⟩
        | setAction a t =>
          refine ⟨(d.setAction a t).1, rfl, ?_⟩
          unfold CTwo.setAction; split <;> exact ht
    obtain ⟨d, hd, ht⟩ := hk
    rw [hd] at hw ⊢
    obtain ⟨x, rfl⟩ := List.length_eq_one_iff.1 hi
    have hw' : d.WF il := hw
    refine ⟨_, _, rfl, rfl, ?_⟩
    have := CTwo.passive hw'.1 hw'.2.1 (by rw [hw'.2.2, ht]; exact hd0) (by rw [hw'.2.2, ht]; exact hd1) x
    simpa [dot, cStarPoint] using this
  · have hk : ∃ d, (CConv.b6 (CB6.new tau il)).run ops = .b6 d ∧ d.s0.tau = tau ∧ d.s1.tau = tau ∧ d.s2.tau = tau := by
      clear hw hf hi
      induction ops using List.reverseRecOn with
      | nil => exact ⟨_, rfl, rfl, rfl, rfl⟩
      | append_singleton l op ih =>
        obtain ⟨d, hd, ht⟩ := ih (fun o ho => hops o (by simp [ho]))
        simp only [CConv.run, List.foldl_append, List.foldl_cons, List.foldl_nil] at hd ⊢
        rw [hd]
        cases op with
        | setTau v => exact absurd rfl (hops (.setTau v) (by simp) v)
        | reset => exact ⟨_, rfl, ht⟩
        | setAction a t =>
          refine ⟨(d.setAction a t).1, rfl, ?_⟩
          match a with
          | [] => exact ht
          | [_] => exact ht
          | [_, _] => exact ht
          | _ :: _ :: _ :: _ => exact ht
    obtain ⟨d, hd, ht0, ht1, ht2⟩ := hk
    rw [hd] at hw ⊢
    obtain ⟨x, y, z, rfl⟩ := List.length_eq_three.1 hi
    have hw' : d.s0.WF il ∧ d.s1.WF il ∧ d.s2.WF il := hw
    refine ⟨_, _, rfl, rfl, ?_⟩
    have p0 := CTwo.passive hw'.1.1 hw'.1.2.1 (by rw [hw'.1.2.2, ht0]; exact hd0) (by rw [hw'.1.2.2, ht0]; exact hd1) x
    have p1 := CTwo.passive hw'.2.1.1 hw'.2.1.2.1 (by rw [hw'.2.1.2.2, ht1]; exact hd0)
      (by rw [hw'.2.1.2.2, ht1]; exact hd1) y
    have p2 := CTwo.passive hw'.2.2.1 hw'.2.2.2.1 (by rw [hw'.2.2.2.2, ht2]; exact hd0)
      (by rw [hw'.2.2.2.2, ht2]; exact hd1) z
    simp only [dot, cStarPoint, List.sum_cons, List.sum_nil]
    linarith

/-- C62 is violated by the continuous four-quadrant converter: `convert` hands both half bridges the same current
direction (converters.py 483), so the dead-time losses cancel in the output voltage while `i_sup` still accounts for
them; the load receives more power than is drawn from the supply. -/
theorem c62_passive_violated :
    ∃ us p, ((CConv.four (CFour.new (1 : ℚ) (1/10))).setAction [1/2] 0).1.convert [1] 0 = .ok us ∧
      ((CConv.four (CFour.new (1 : ℚ) (1/10))).setAction [1/2] 0).1.iSup [1] = .ok p ∧ p < dot us [1] := by
  refine ⟨[1/2], 7/20, ?_, ?_, ?_⟩
  · simp [CConv.setAction, CConv.convert, CFour.new, CTwo.new, CFour.setAction, CFour.convert, CTwo.setAction,
      CTwo.convert, CTwo.interlock, clip]
    norm_num
  · simp [CConv.setAction, CConv.iSup, CFour.new, CTwo.new, CFour.setAction, CFour.iSup, CTwo.setAction,
      CTwo.iSup, clip]
    norm_num
  · norm_num [dot]

end GEM.Props
