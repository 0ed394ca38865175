import Verif.Props.Sampled
import Verif.Proofs.Systems
import Verif.Proofs.Converters
import Verif.Model.ConverterHistory
import Verif.Model.Supplies

/-!
# What converters and supplies deliver during a step (for C107)
-/

set_option linter.unusedSectionVars false

namespace GEM.Props

open GEM GEM.Conv Set Filter Topology

noncomputable section

/-- The methods of a converter that the physical systems call. -/
structure Power (A C : Type) where
  setAction : C → A → ℝ → Call C (List ℝ)
  convert : C → List ℝ → ℝ → Call C (List ℝ)
  iSup : C → List ℝ → Except Err ℝ
  reset : C → C × List ℝ

/-- elementary continuous converters -/
def contPower : Power (List ℝ) (CConv ℝ) := ⟨CConv.setAction, fun c i t => (c, c.convert i t), CConv.iSup, CConv.reset⟩
/-- elementary finite converters -/
def finitePower : Power ℕ (FConv ℝ) := ⟨FConv.setAction, FConv.convert, FConv.iSup, FConv.reset⟩
/-- continuous multi converters -/
def contMulti : Power (List ℝ) (List (CConv ℝ)) :=
  ⟨cMultiSetAction, fun c i t => (c, cMultiConvert c i t), cMultiISup, cMultiReset⟩
/-- finite multi converters -/
def finiteMulti : Power (List ℕ) (List (FConv ℝ)) := ⟨multiSetAction, multiConvert, multiISup, multiReset⟩

/-- What a converter does in a step, depending on the positions of its switches before (`D`) and the action. -/
structure Machine (D A : Type) (n : ℕ) where
  /-- the switching times, relative to the beginning of the step -/
  times : D → A → List ℝ
  /-- the output for these currents (relative to the supply voltage), from this time on -/
  out : D → A → ℝ → (Fin n → ℝ) → Fin n → ℝ
  /-- the positions of the switches, from this time on -/
  next : D → A → ℝ → D
  /-- the current drawn from the supply at the beginning of the step -/
  sup : D → A → (Fin n → ℝ) → ℝ

/-- Converters that behave like the machine: `holds c δ` for a converter between two steps with switches in the positions `δ`.  At the
beginning of a step they accept every legal action, return the switching times and draw the current of the machine; afterwards, at
any time and with any currents, they have the output and the positions of the machine and do not raise. -/
def Realises {A C D : Type} {n : ℕ} (pw : Power A C) (M : Machine D A n) (legal : A → Prop) (holds : C → D → Prop) : Prop :=
  (∃ during : C → D → A → ℝ → Prop,
    (∀ c δ a t, holds c δ → legal a → ∃ c', pw.setAction c a t = (c', .ok ((M.times δ a).map (t + ·))) ∧
      (∀ i : Fin n → ℝ, pw.iSup c' (List.ofFn i) = .ok (M.sup δ a i)) ∧ during c' δ a t) ∧
    (∀ c δ a t, legal a → during c δ a t → ∀ i : Fin n → ℝ, (∃ w, pw.iSup c (List.ofFn i) = .ok w) ∧
      ∀ o, ∃ c', pw.convert c (List.ofFn i) (t + o) = (c', .ok (List.ofFn (M.out δ a o i))) ∧ during c' δ a t ∧
        holds c' (M.next δ a o))) ∧
  (∀ c δ, holds c δ → holds (pw.reset c).1 δ)

/-- The output depends on the signs of the currents only, the switching times are in order, and the current from the supply does
not jump. -/
structure Regular {A D : Type} {n : ℕ} (M : Machine D A n) : Prop where
  signs : ∀ δ a o i j, (∀ k, SignType.sign (i k) = SignType.sign (j k)) → M.out δ a o i = M.out δ a o j
  sorted : ∀ δ a, (M.times δ a).dropLast.Pairwise (· ≤ ·)
  sup : ∀ δ a, LipBdd (M.sup δ a)

/-- A function of the currents that does not jump here. -/
def Steady {n : ℕ} (out : (Fin n → ℝ) → Fin n → ℝ) (i : Fin n → ℝ) : Prop := ∀ᶠ j in 𝓝 i, out j = out i

theorem Regular.steady {A D : Type} {n : ℕ} {M : Machine D A n} (h : Regular M) (δ : D) (a : A) (o : ℝ) {i : Fin n → ℝ}
    (hi : ∀ k, i k ≠ 0) : Steady (M.out δ a o) i := by
  have : ∀ᶠ j in 𝓝 i, ∀ k, SignType.sign (j k) = SignType.sign (i k) := by
    refine eventually_all.2 fun k => ?_
    have hc : ContinuousAt (fun j : Fin n → ℝ => j k) i := (continuous_apply k).continuousAt
    rcases lt_or_gt_of_ne (hi k) with h | h
    · filter_upwards [hc.eventually_lt continuousAt_const h] with j hj
      rw [sign_neg hj, sign_neg h]
    · filter_upwards [continuousAt_const.eventually_lt hc h] with j hj
      rw [sign_pos hj, sign_pos h]
  filter_upwards [this] with j hj
  exact h.signs δ a o j i hj

/-! ## Lipschitz functions -/

section lip

variable {E G : Type*} [NormedAddCommGroup E] [NormedSpace ℝ E] [NormedAddCommGroup G] [NormedSpace ℝ G]

theorem LipBdd.min_zero {f : E → ℝ} (hf : LipBdd f) : LipBdd fun x => min (f x) 0 :=
  hf.comp (φ := fun v => min v 0) fun v w => by
    refine (abs_min_sub_min_le_max _ _ _ _).trans ?_
    rw [sub_self, abs_zero]
    exact max_le le_rfl (abs_nonneg _)

theorem LipBdd.sum {ι : Type*} (s : Finset ι) {f : ι → E → ℝ} (hf : ∀ i ∈ s, LipBdd (f i)) : LipBdd fun x => ∑ i ∈ s, f i x := by
  classical
  induction s using Finset.induction_on with
  | empty => simpa using LipBdd.const (0 : ℝ)
  | insert i s hi ih =>
    simp only [Finset.sum_insert hi]
    exact (hf i (by simp)).add (ih fun j hj => hf j (by simp [hj]))

theorem LipBdd.const_on {α : Type*} {n k : ℕ} {g : (Fin k → ℝ) → α} (σ : Fin k → Fin n) {F : α → ℝ} (h : LipBdd fun i => F (g i)) :
    LipBdd fun i : Fin n → ℝ => F (g fun j => i (σ j)) := by
  intro R
  obtain ⟨L, hL, hl⟩ := h R
  have hn : ∀ x : Fin n → ℝ, ‖fun j => x (σ j)‖ ≤ ‖x‖ := fun x =>
    (pi_norm_le_iff_of_nonneg (norm_nonneg _)).2 fun j => norm_le_pi_norm x _
  refine ⟨L, hL, fun x y hx hy => (hl _ _ ((hn x).trans hx) ((hn y).trans hy)).trans ?_⟩
  exact mul_le_mul_of_nonneg_left (hn (x - y)) hL

end lip

/-! ## Switching times in order -/

theorem sortedSet_singleton (x : ℝ) : sortedSet [x] = [x] := by simp [sortedSet]

theorem sortedSet_shift (t : ℝ) (l : List ℝ) : sortedSet (l.map (t + ·)) = (sortedSet l).map (t + ·) := by
  have h1 := sortedSet_pairwise (l.map (t + ·))
  have h2 : ((sortedSet l).map (t + ·)).Pairwise (· < ·) := by
    rw [List.pairwise_map]
    exact (sortedSet_pairwise l).imp fun h => by linarith
  have hp : (sortedSet (l.map (t + ·))).Perm ((sortedSet l).map (t + ·)) := by
    refine (List.perm_ext_iff_of_nodup (h1.imp fun h => h.ne) (h2.imp fun h => h.ne)).2 fun x => ?_
    simp only [mem_sortedSet, List.mem_map]
  exact hp.eq_of_pairwise (fun a b _ _ h h' => (lt_asymm h h').elim) h1 h2

theorem sortedSet_inner (l : List ℝ) : (sortedSet l).dropLast.Pairwise (· ≤ ·) :=
  ((sortedSet_pairwise l).sublist (List.dropLast_sublist _)).imp fun h => h.le

theorem shift_dropLast (t : ℝ) (l : List ℝ) : (l.map (t + ·)).dropLast = l.dropLast.map (t + ·) := by
  rw [List.dropLast_eq_take, List.dropLast_eq_take, List.map_take, List.length_map]

/-! ## Continuous converters -/

/-- effect of the interlocking time -/
def dead (tau il i : ℝ) : ℝ := ((SignType.sign i : SignType) : ℝ) / tau * il

/-- one quadrant: a negative current flows through the diode -/
def cOneOut (a : List ℝ) (i : Fin 1 → ℝ) : Fin 1 → ℝ := fun _ => if 0 ≤ i 0 then clip (a.headD 0) 0 1 else 1
/-- two quadrants -/
def cTwoOut (tau il : ℝ) (a : List ℝ) (i : Fin 1 → ℝ) : Fin 1 → ℝ := fun _ => clip (clip (a.headD 0) 0 1 - dead tau il (i 0)) 0 1
/-- four quadrants -/
def cFourOut (tau il : ℝ) (a : List ℝ) (i : Fin 1 → ℝ) : Fin 1 → ℝ := fun _ =>
  clip (clip (1 / 2 * (a.headD 0 + 1)) 0 1 - dead tau il (i 0)) 0 1
    - clip (clip (-(1 / 2) * (a.headD 0 - 1)) 0 1 - dead tau il (i 0)) 0 1
/-- three phases -/
def cB6Out (tau il : ℝ) (a : List ℝ) (i : Fin 3 → ℝ) : Fin 3 → ℝ := fun k =>
  clip (clip (1 / 2 * (a.getD k 0 + 1)) 0 1 - dead tau il (i k)) 0 1 - 1 / 2

/-- current that a half bridge with the duty cycle `u` draws from the supply -/
def legDraw (tau il u i : ℝ) : ℝ := u * i + il / tau * (min i 0 - u * i)

/-- currents drawn from the supply -/
def cOneSup (a : List ℝ) (i : Fin 1 → ℝ) : ℝ := clip (a.headD 0) 0 1 * i 0
/-- two quadrants -/
def cTwoSup (tau il : ℝ) (a : List ℝ) (i : Fin 1 → ℝ) : ℝ := legDraw tau il (clip (a.headD 0) 0 1) (i 0)
/-- four quadrants: the current enters through one half bridge and leaves through the other -/
def cFourSup (tau il : ℝ) (a : List ℝ) (i : Fin 1 → ℝ) : ℝ :=
  legDraw tau il (clip (1 / 2 * (a.headD 0 + 1)) 0 1) (i 0) + legDraw tau il (clip (-(1 / 2) * (a.headD 0 - 1)) 0 1) (-i 0)
/-- three phases -/
def cB6Sup (tau il : ℝ) (a : List ℝ) (i : Fin 3 → ℝ) : ℝ :=
  ∑ k : Fin 3, legDraw tau il (clip (1 / 2 * (a.getD k 0 + 1)) 0 1) (i k)

/-- converters without switching events -/
def smooth {A : Type} {n : ℕ} (tau : ℝ) (out : A → (Fin n → ℝ) → Fin n → ℝ) (sup : A → (Fin n → ℝ) → ℝ) : Machine Unit A n :=
  ⟨fun _ _ => [tau], fun _ a _ => out a, fun _ _ _ => (), fun _ => sup⟩

/-- one quadrant converters -/
def IsCOne (tau : ℝ) (c : CConv ℝ) : Prop := ∃ c', c = .one c' ∧ c'.tau = tau
/-- two quadrant converters -/
def IsCTwo (tau il : ℝ) (c : CConv ℝ) : Prop := ∃ c', c = .two c' ∧ c'.tau = tau ∧ c'.il = il
/-- four quadrant converters -/
def IsCFour (tau il : ℝ) (c : CConv ℝ) : Prop :=
  ∃ c', c = .four c' ∧ (c'.sub0.tau = tau ∧ c'.sub0.il = il) ∧ c'.sub1.tau = tau ∧ c'.sub1.il = il
/-- three-phase bridges -/
def IsCB6 (tau il : ℝ) (c : CConv ℝ) : Prop :=
  ∃ c', c = .b6 c' ∧ (c'.s0.tau = tau ∧ c'.s0.il = il) ∧ (c'.s1.tau = tau ∧ c'.s1.il = il) ∧ c'.s2.tau = tau ∧ c'.s2.il = il

theorem CTwo.iSup_eq (c : CTwo ℝ) (x : ℝ) (xs : List ℝ) : c.iSup (x :: xs) = .ok (legDraw c.tau c.il c.action x) := by
  unfold CTwo.iSup legDraw
  simp only
  congr 1
  split_ifs with h
  · rw [min_eq_left h.le]; ring
  · rw [min_eq_right (not_lt.1 h)]; ring

theorem lip_legDraw {E : Type*} [NormedAddCommGroup E] [NormedSpace ℝ E] {u i : E → ℝ} (hu : LipBdd u) (hi : LipBdd i) (tau il : ℝ) :
    LipBdd fun x => legDraw tau il (u x) (i x) :=
  (hu.mul hi).add ((LipBdd.const (il / tau)).mul (hi.min_zero.sub (hu.mul hi)))

/-- continuous converters: what they do follows from the action alone -/
theorem smooth_realises {n : ℕ} {tau : ℝ} {out : List ℝ → (Fin n → ℝ) → Fin n → ℝ} {sup : List ℝ → (Fin n → ℝ) → ℝ} {legal : List ℝ → Prop}
    {ok : CConv ℝ → Prop} (h : ∀ c a t, ok c → legal a → ∃ c', c.setAction a t = (c', .ok [t + tau]) ∧ ok c' ∧
      (∀ i : Fin n → ℝ, c'.iSup (List.ofFn i) = .ok (sup a i)) ∧
      ∀ (i : Fin n → ℝ) s, c'.convert (List.ofFn i) s = .ok (List.ofFn (out a i)))
    (hr : ∀ c, ok c → ok c.reset.1) : Realises contPower (smooth tau out sup) legal fun c _ => ok c := by
  refine ⟨⟨fun c _ a _ => ok c ∧ (∀ i : Fin n → ℝ, c.iSup (List.ofFn i) = .ok (sup a i)) ∧
    ∀ (i : Fin n → ℝ) s, c.convert (List.ofFn i) s = .ok (List.ofFn (out a i)), ?_, ?_⟩, fun c _ => hr c⟩
  · intro c _ a t hc ha
    obtain ⟨c', h1, h2, h3, h4⟩ := h c a t hc ha
    exact ⟨c', h1, h3, h2, h3, h4⟩
  · rintro c _ a t ha ⟨h2, h3, h4⟩ i
    refine ⟨⟨_, h3 i⟩, fun o => ⟨c, ?_, ⟨h2, h3, h4⟩, h2⟩⟩
    simp only [contPower, h4 i (t + o), smooth]

theorem cOne_realises (tau : ℝ) : Realises contPower (smooth tau cOneOut cOneSup) (fun a => a.length = 1) fun c _ => IsCOne tau c := by
  refine smooth_realises ?_ (by rintro c ⟨c', rfl, h⟩; exact ⟨_, rfl, h⟩)
  rintro c a t ⟨c', rfl, rfl⟩ ha
  obtain ⟨x, rfl⟩ := List.length_eq_one_iff.1 ha
  refine ⟨.one { c' with action := clip x 0 1 }, rfl, ⟨_, rfl, rfl⟩, fun i => ?_, fun i s => ?_⟩
  · simp [CConv.iSup, COne.iSup, cOneSup]
  · simp only [CConv.convert, COne.convert, List.ofFn_succ, List.ofFn_zero, cOneOut]
    congr 2
    simp only [Fin.isValue, List.headD_cons, sub_zero]
    have := clip_mem (x := x) (zero_le_one (α := ℝ))
    split_ifs
    · exact clip_of_mem this.1 this.2
    · exact clip_of_mem zero_le_one le_rfl

theorem cTwo_realises (tau il : ℝ) :
    Realises contPower (smooth tau (cTwoOut tau il) (cTwoSup tau il)) (fun a => a.length = 1) fun c _ => IsCTwo tau il c := by
  refine smooth_realises ?_ (by rintro c ⟨c', rfl, h⟩; exact ⟨_, rfl, h⟩)
  rintro c a t ⟨c', rfl, rfl, rfl⟩ ha
  obtain ⟨x, rfl⟩ := List.length_eq_one_iff.1 ha
  refine ⟨.two { c' with action := clip x 0 1 }, rfl, ⟨_, rfl, rfl, rfl⟩, fun i => ?_, fun i s => ?_⟩
  · simp [CConv.iSup, CTwo.iSup_eq, cTwoSup]
  · simp [CConv.convert, CTwo.convert, CTwo.interlock, cTwoOut, dead]

theorem cFour_realises (tau il : ℝ) :
    Realises contPower (smooth tau (cFourOut tau il) (cFourSup tau il)) (fun a => a.length = 1) fun c _ => IsCFour tau il c := by
  refine smooth_realises ?_ (by rintro c ⟨c', rfl, h⟩; exact ⟨_, rfl, h⟩)
  rintro c a t ⟨c', rfl, ⟨h1, h2⟩, h3, h4⟩ ha
  obtain ⟨x, rfl⟩ := List.length_eq_one_iff.1 ha
  refine ⟨.four { c' with sub0 := { c'.sub0 with action := clip (1 / 2 * (x + 1)) 0 1 },
                          sub1 := { c'.sub1 with action := clip (-(1 / 2) * (x - 1)) 0 1 } }, ?_, ⟨_, rfl, ⟨h1, h2⟩, h3, h4⟩,
    fun i => ?_, fun i s => ?_⟩
  · simp only [CConv.setAction, CFour.setAction, CTwo.setAction, Prod.map_apply, id, h1, h3]
    simp [sortedSet]
  · simp [CConv.iSup, CFour.iSup, CTwo.iSup_eq, cFourSup, h1, h2, h3, h4]
  · simp [CConv.convert, CFour.convert, CTwo.convert, CTwo.interlock, cFourOut, dead, h1, h2, h3, h4]

theorem cB6_realises (tau il : ℝ) :
    Realises contPower (smooth tau (cB6Out tau il) (cB6Sup tau il)) (fun a => a.length = 3) fun c _ => IsCB6 tau il c := by
  refine smooth_realises ?_ (by rintro c ⟨c', rfl, h⟩; exact ⟨_, rfl, h⟩)
  rintro c a t ⟨c', rfl, ⟨h1, h2⟩, ⟨h3, h4⟩, h5, h6⟩ ha
  obtain ⟨x, y, z, rfl⟩ := List.length_eq_three.1 ha
  refine ⟨.b6 { c' with s0 := { c'.s0 with action := clip (1 / 2 * (x + 1)) 0 1 },
                        s1 := { c'.s1 with action := clip (1 / 2 * (y + 1)) 0 1 },
                        s2 := { c'.s2 with action := clip (1 / 2 * (z + 1)) 0 1 } }, ?_, ⟨_, rfl, ⟨h1, h2⟩, ⟨h3, h4⟩, h5, h6⟩,
    fun i => ?_, fun i s => ?_⟩
  · simp only [CConv.setAction, CB6.setAction, CTwo.setAction, Prod.map_apply, id, h1, h3, h5]
    simp [sortedSet]
  · simp [CConv.iSup, CB6.iSup, sumZip, CTwo.iSup_eq, cB6Sup, h1, h2, h3, h4, h5, h6, List.ofFn_succ, Fin.sum_univ_succ]
  · simp [CConv.convert, CB6.convert, CTwo.convert, CTwo.interlock, cB6Out, dead, h1, h2, h3, h4, h5, h6,
      List.ofFn_succ]

theorem smooth_regular {A : Type} {n : ℕ} {tau : ℝ} {out : A → (Fin n → ℝ) → Fin n → ℝ} {sup : A → (Fin n → ℝ) → ℝ}
    (h : ∀ a i j, (∀ k, SignType.sign (i k) = SignType.sign (j k)) → out a i = out a j) (hs : ∀ a, LipBdd (sup a)) :
    Regular (smooth tau out sup) where
  signs _ a _ := h a
  sorted _ _ := by simp [smooth]
  sup _ := hs

theorem cOne_regular (tau : ℝ) : Regular (smooth tau cOneOut cOneSup) := by
  refine smooth_regular (fun a i j h => ?_) fun a => (LipBdd.const _).mul (LipBdd.proj 0)
  have h0 := h 0
  unfold cOneOut
  have : (0 ≤ i 0) ↔ 0 ≤ j 0 := by rw [← sign_nonneg_iff (a := i 0), ← sign_nonneg_iff (a := j 0), h0]
  simp only [this]

theorem cTwo_regular (tau il : ℝ) : Regular (smooth tau (cTwoOut tau il) (cTwoSup tau il)) :=
  smooth_regular (fun a i j h => by unfold cTwoOut dead; simp only [h 0]) fun _ => lip_legDraw (LipBdd.const _) (LipBdd.proj 0) _ _

theorem cFour_regular (tau il : ℝ) : Regular (smooth tau (cFourOut tau il) (cFourSup tau il)) :=
  smooth_regular (fun a i j h => by unfold cFourOut dead; simp only [h 0]) fun _ =>
    (lip_legDraw (LipBdd.const _) (LipBdd.proj 0) _ _).add (lip_legDraw (LipBdd.const _) (LipBdd.proj 0).neg _ _)

theorem cB6_regular (tau il : ℝ) : Regular (smooth tau (cB6Out tau il) (cB6Sup tau il)) :=
  smooth_regular (fun a i j h => by unfold cB6Out dead; funext k; simp only [h k]) fun _ =>
    LipBdd.sum _ fun k _ => lip_legDraw (LipBdd.const _) (LipBdd.proj k) _ _

/-! ## Finite converters -/

/-- one quadrant -/
def fOneOut (a : ℕ) (i : Fin 1 → ℝ) : Fin 1 → ℝ := fun _ => if 0 ≤ i 0 then a else 1
/-- one quadrant -/
def fOneSup (a : ℕ) (i : Fin 1 → ℝ) : ℝ := if a = 1 then i 0 else 0

/-- The half bridge waits with both switches open before it changes from one closed switch (position `s`) to the other (`a`). -/
def Waits (il : ℝ) (s a : ℕ) : Prop := a ≠ 0 ∧ s ≠ 0 ∧ a ≠ s ∧ il ≠ 0

open Classical in
/-- switching times of a half bridge, relative to the beginning of the step -/
def legTimes (tau il : ℝ) (s a : ℕ) : List ℝ := if Waits il s a then [il, tau] else [tau]
open Classical in
/-- its position (0: open, 1: high, 2: low) at the time `o` -/
def legNext (tau il : ℝ) (s a : ℕ) (o : ℝ) : ℕ := if Waits il s a ∧ o ≤ il + tau / 1000 then 0 else a
/-- its output: if both switches are open the current flows through the diodes -/
def legOut (s : ℕ) (i : ℝ) : ℝ := if s = 0 then (if i < 0 then 1 else 0) else if s = 1 then 1 else 0
/-- the current it draws from the supply -/
def legSup (s : ℕ) (i : ℝ) : ℝ := if s = 0 then min i 0 else if s = 1 then i else 0

/-- positions of the two half bridges of a four quadrant converter -/
def fourLegs (a : ℕ) : ℕ × ℕ := if a = 0 then (1, 1) else if a = 1 then (1, 2) else if a = 2 then (2, 1) else (2, 2)
/-- positions of the half bridges of a three-phase bridge: one bit each -/
def b6Legs (a : ℕ) (k : Fin 3) : ℕ := if a.testBit (2 - k) then 1 else 2

/-- one quadrant converters -/
def fOne (tau : ℝ) : Machine Unit ℕ 1 := smooth tau fOneOut fOneSup
/-- two quadrant converters -/
def fTwo (tau il : ℝ) : Machine ℕ ℕ 1 where
  times := legTimes tau il
  out s a o i _ := legOut (legNext tau il s a o) (i 0)
  next := legNext tau il
  sup s _ i := legSup s (i 0)
/-- four quadrant converters -/
def fFour (tau il : ℝ) : Machine (ℕ × ℕ) ℕ 1 where
  times s a := sortedSet (legTimes tau il s.1 (fourLegs a).1 ++ legTimes tau il s.2 (fourLegs a).2)
  out s a o i _ := legOut (legNext tau il s.1 (fourLegs a).1 o) (i 0) - legOut (legNext tau il s.2 (fourLegs a).2 o) (-i 0)
  next s a o := (legNext tau il s.1 (fourLegs a).1 o, legNext tau il s.2 (fourLegs a).2 o)
  sup s _ i := legSup s.1 (i 0) + legSup s.2 (-i 0)
/-- three-phase bridges -/
def fB6 (tau il : ℝ) : Machine (Fin 3 → ℕ) ℕ 3 where
  times s a := sortedSet (legTimes tau il (s 0) (b6Legs a 0) ++ legTimes tau il (s 1) (b6Legs a 1) ++ legTimes tau il (s 2) (b6Legs a 2))
  out s a o i k := legOut (legNext tau il (s k) (b6Legs a k) o) (i k) - 1 / 2
  next s a o k := legNext tau il (s k) (b6Legs a k) o
  sup s _ i := ∑ k : Fin 3, legSup (s k) (i k)

/-- half bridges between two steps -/
def IsLeg (tau il : ℝ) (c : TwoQC ℝ) (s : ℕ) : Prop := c.tau = tau ∧ c.il = il ∧ c.state = s ∧ s ≤ 2

/-- one quadrant converters -/
def IsFOne (tau : ℝ) (c : FConv ℝ) : Prop := ∃ c', c = .one c' ∧ c'.tau = tau
/-- two quadrant converters -/
def IsFTwo (tau il : ℝ) (c : FConv ℝ) (s : ℕ) : Prop := ∃ c', c = .two c' ∧ IsLeg tau il c' s
/-- four quadrant converters -/
def IsFFour (tau il : ℝ) (c : FConv ℝ) (s : ℕ × ℕ) : Prop := ∃ c', c = .four c' ∧ IsLeg tau il c'.sub0 s.1 ∧ IsLeg tau il c'.sub1 s.2
/-- three-phase bridges -/
def IsFB6 (tau il : ℝ) (c : FConv ℝ) (s : Fin 3 → ℕ) : Prop :=
  ∃ c', c = .b6 c' ∧ IsLeg tau il c'.s0 (s 0) ∧ IsLeg tau il c'.s1 (s 1) ∧ IsLeg tau il c'.s2 (s 2)

open Classical in
/-- half bridges during a step -/
def LegBusy (tau il : ℝ) (c : TwoQC ℝ) (s a : ℕ) (t : ℝ) : Prop :=
  c.tau = tau ∧ c.il = il ∧ c.state ≤ 2 ∧ c.start = t ∧ c.pattern = if Waits il s a then [0, a] else [a]

theorem leg_set {tau il : ℝ} {c : TwoQC ℝ} {s : ℕ} (h : IsLeg tau il c s) {a : ℕ} (ha : a < 3) (t : ℝ) :
    ∃ c', c.setAction a t = (c', .ok ((legTimes tau il s a).map (t + ·))) ∧ c'.state = s ∧ LegBusy tau il c' s a t := by
  obtain ⟨rfl, rfl, rfl, h4⟩ := h
  have e : (a = 0 ∨ c.state = 0 ∨ a = c.state ∨ c.il = 0) ↔ ¬ Waits c.il c.state a := by
    unfold Waits
    tauto
  by_cases hw : Waits c.il c.state a
  · refine ⟨{ c with start := t, action := a, pattern := [0, a] }, ?_, rfl, rfl, rfl, h4, rfl, by rw [if_pos hw]⟩
    unfold TwoQC.setAction legTimes
    rw [if_pos ha, if_neg (by rw [e]; exact not_not.2 hw), if_pos hw]
    rfl
  · refine ⟨{ c with start := t, action := a, pattern := [a] }, ?_, rfl, rfl, rfl, h4, rfl, by rw [if_neg hw]⟩
    unfold TwoQC.setAction legTimes
    rw [if_pos ha, if_pos (by rw [e]; exact hw), if_neg hw]
    rfl

theorem leg_sup (c : TwoQC ℝ) (h : c.state ≤ 2) (x : ℝ) (xs : List ℝ) : c.iSup (x :: xs) = .ok (legSup c.state x) := by
  unfold TwoQC.iSup legSup
  obtain h | h | h : c.state = 0 ∨ c.state = 1 ∨ c.state = 2 := by omega
  · simp only [h, if_true]
    congr 1
    split_ifs with h'
    · rw [min_eq_left h'.le]
    · rw [min_eq_right (not_lt.1 h')]
  · simp [h]
  · simp [h]

theorem leg_convert {tau il : ℝ} {c : TwoQC ℝ} {s a : ℕ} {t : ℝ} (h : LegBusy tau il c s a t) (ha : a < 3) (o x : ℝ) (xs : List ℝ) :
    ∃ c', c.convert (x :: xs) (t + o) = (c', .ok [legOut (legNext tau il s a o) x]) ∧ LegBusy tau il c' s a t ∧
      IsLeg tau il c' (legNext tau il s a o) := by
  obtain ⟨rfl, rfl, h3, rfl, h5⟩ := h
  have hn : legNext c.tau c.il s a o ≤ 2 := by unfold legNext; split_ifs <;> omega
  have key : (if c.start + o - c.tau / 1000 > c.start + c.il then c.pattern.getLast? else c.pattern.head?)
      = some (legNext c.tau c.il s a o) := by
    rw [h5]
    unfold legNext
    by_cases hw : Waits c.il s a
    · simp only [hw, if_true, true_and]
      by_cases ho : o ≤ c.il + c.tau / 1000
      · rw [if_neg (by linarith), if_pos ho]; rfl
      · rw [if_pos (by linarith), if_neg ho]; rfl
    · simp only [hw, if_false, false_and]
      simp
  refine ⟨{ c with state := legNext c.tau c.il s a o }, ?_, ⟨rfl, rfl, hn, rfl, h5⟩, rfl, rfl, rfl, hn⟩
  unfold TwoQC.convert
  rw [key]
  obtain h | h | h : legNext c.tau c.il s a o = 0 ∨ legNext c.tau c.il s a o = 1 ∨ legNext c.tau c.il s a o = 2 := by omega
  all_goals simp [h, legOut]

theorem leg_reset {tau il : ℝ} {c : TwoQC ℝ} {s : ℕ} (h : IsLeg tau il c s) : IsLeg tau il c.reset.1 s := h

theorem fOne_realises (tau : ℝ) : Realises finitePower (fOne tau) (fun a => a < 2) fun c _ => IsFOne tau c := by
  refine ⟨⟨fun c _ a _ => ∃ c', c = .one c' ∧ c'.tau = tau ∧ c'.action = a, ?_, ?_⟩, by rintro c _ ⟨c', rfl, h⟩; exact ⟨_, rfl, h⟩⟩
  · rintro c _ a t ⟨c', rfl, rfl⟩ ha
    refine ⟨.one { c' with start := t, action := a }, ?_, fun i => ?_, ⟨_, rfl, rfl, rfl⟩⟩
    · simp [finitePower, FConv.setAction, OneQC.setAction, ha, fOne, smooth]
    · simp only [finitePower, FConv.iSup, OneQC.iSup, List.ofFn_succ, fOne, smooth, fOneSup]
      split_ifs <;> rfl
  · rintro c _ a t ha ⟨c', rfl, rfl, rfl⟩ i
    refine ⟨?_, fun o => ⟨.one c', ?_, ⟨_, rfl, rfl, rfl⟩, ⟨_, rfl, rfl⟩⟩⟩
    · simp only [finitePower, FConv.iSup, OneQC.iSup, List.ofFn_succ]
      split_ifs
      · exact ⟨_, rfl⟩
      · exact ⟨_, rfl⟩
    · simp [finitePower, FConv.convert, OneQC.convert, fOneOut, fOne, smooth]

theorem fTwo_realises (tau il : ℝ) : Realises finitePower (fTwo tau il) (fun a => a < 3) (IsFTwo tau il) := by
  refine ⟨⟨fun c s a t => ∃ c', c = .two c' ∧ LegBusy tau il c' s a t, ?_, ?_⟩, by rintro c s ⟨c', rfl, h⟩; exact ⟨_, rfl, h⟩⟩
  · rintro c s a t ⟨c', rfl, h⟩ ha
    obtain ⟨c'', h1, h2, h3⟩ := leg_set h ha t
    refine ⟨.two c'', ?_, fun i => ?_, ⟨_, rfl, h3⟩⟩
    · simp [finitePower, FConv.setAction, h1, fTwo]
    · simp [finitePower, FConv.iSup, leg_sup c'' h3.2.2.1, fTwo, h2]
  · rintro c s a t ha ⟨c', rfl, h⟩ i
    refine ⟨⟨_, by simp only [finitePower, FConv.iSup, List.ofFn_succ, leg_sup c' h.2.2.1]; rfl⟩, fun o => ?_⟩
    obtain ⟨c'', h1, h2, h3⟩ := leg_convert h ha o (i 0) []
    refine ⟨.two c'', ?_, ⟨_, rfl, h2⟩, ⟨_, rfl, h3⟩⟩
    simp [finitePower, FConv.convert, h1, fTwo]

theorem fourLegs_eq (a : ℕ) : (fourAction0 a, fourAction1 a) = fourLegs a := by
  match a with
  | 0 => rfl
  | 1 => rfl
  | 2 => rfl
  | a + 3 => simp [fourAction0, fourAction1, fourLegs]

theorem fourLegs_lt (a : ℕ) : (fourLegs a).1 < 3 ∧ (fourLegs a).2 < 3 := by
  unfold fourLegs
  split_ifs <;> norm_num

theorem fFour_realises (tau il : ℝ) : Realises finitePower (fFour tau il) (fun a => a < 4) (IsFFour tau il) := by
  refine ⟨⟨fun c s a t => ∃ c', c = .four c' ∧ LegBusy tau il c'.sub0 s.1 (fourLegs a).1 t ∧ LegBusy tau il c'.sub1 s.2 (fourLegs a).2 t,
    ?_, ?_⟩, by rintro c s ⟨c', rfl, h⟩; exact ⟨_, rfl, h⟩⟩
  · rintro c s a t ⟨c', rfl, h, h'⟩ ha
    obtain ⟨d0, h1, h2, h3⟩ := leg_set h (fourLegs_lt a).1 t
    obtain ⟨d1, h1', h2', h3'⟩ := leg_set h' (fourLegs_lt a).2 t
    have e0 : fourAction0 a = (fourLegs a).1 := congrArg Prod.fst (fourLegs_eq a)
    have e1 : fourAction1 a = (fourLegs a).2 := congrArg Prod.snd (fourLegs_eq a)
    refine ⟨.four { c' with sub0 := d0, sub1 := d1 }, ?_, fun i => ?_, ⟨_, rfl, h3, h3'⟩⟩
    · simp only [finitePower, FConv.setAction, FourQC.setAction, if_pos ha, e0, e1, h1, h1', fFour]
      rw [← List.map_append, sortedSet_shift]
      rfl
    · simp [finitePower, FConv.iSup, FourQC.iSup, leg_sup d0 h3.2.2.1, leg_sup d1 h3'.2.2.1, fFour, h2, h2']
  · rintro c s a t ha ⟨c', rfl, h, h'⟩ i
    refine ⟨⟨_, by simp only [finitePower, FConv.iSup, FourQC.iSup, List.ofFn_succ, leg_sup c'.sub0 h.2.2.1, leg_sup c'.sub1 h'.2.2.1]; rfl⟩,
      fun o => ?_⟩
    obtain ⟨d0, h1, h2, h3⟩ := leg_convert h (fourLegs_lt a).1 o (i 0) []
    obtain ⟨d1, h1', h2', h3'⟩ := leg_convert h' (fourLegs_lt a).2 o (-i 0) []
    refine ⟨.four { c' with sub0 := d0, sub1 := d1 }, ?_, ⟨_, rfl, h2, h2'⟩, ⟨_, rfl, h3, h3'⟩⟩
    simp [finitePower, FConv.convert, FourQC.convert, h1, h1', fFour]

theorem b6Legs_eq {a : ℕ} (ha : a < 8) : b6Sub a = (b6Legs a 0, b6Legs a 1, b6Legs a 2) := by
  obtain rfl | rfl | rfl | rfl | rfl | rfl | rfl | rfl :
    a = 0 ∨ a = 1 ∨ a = 2 ∨ a = 3 ∨ a = 4 ∨ a = 5 ∨ a = 6 ∨ a = 7 := by omega
  all_goals simp [b6Legs, b6Sub, Nat.testBit]

theorem b6Legs_lt (a : ℕ) (k : Fin 3) : b6Legs a k < 3 := by
  unfold b6Legs
  split_ifs <;> norm_num

theorem fB6_realises (tau il : ℝ) : Realises finitePower (fB6 tau il) (fun a => a < 8) (IsFB6 tau il) := by
  refine ⟨⟨fun c s a t => ∃ c', c = .b6 c' ∧ LegBusy tau il c'.s0 (s 0) (b6Legs a 0) t ∧ LegBusy tau il c'.s1 (s 1) (b6Legs a 1) t ∧
    LegBusy tau il c'.s2 (s 2) (b6Legs a 2) t, ?_, ?_⟩, by rintro c s ⟨c', rfl, h⟩; exact ⟨_, rfl, h⟩⟩
  · rintro c s a t ⟨c', rfl, h, h', h''⟩ ha
    obtain ⟨d0, h1, h2, h3⟩ := leg_set h (b6Legs_lt a 0) t
    obtain ⟨d1, h1', h2', h3'⟩ := leg_set h' (b6Legs_lt a 1) t
    obtain ⟨d2, h1'', h2'', h3''⟩ := leg_set h'' (b6Legs_lt a 2) t
    refine ⟨.b6 { c' with s0 := d0, s1 := d1, s2 := d2 }, ?_, fun i => ?_, ⟨_, rfl, h3, h3', h3''⟩⟩
    · simp only [finitePower, FConv.setAction, B6.setAction, if_pos ha, b6Legs_eq ha, h1, h1', h1'', fB6]
      rw [← List.map_append, ← List.map_append, sortedSet_shift]
      rfl
    · simp [finitePower, FConv.iSup, B6.iSup, sumZip, leg_sup d0 h3.2.2.1, leg_sup d1 h3'.2.2.1, leg_sup d2 h3''.2.2.1, fB6, h2, h2',
        h2'', List.ofFn_succ, Fin.sum_univ_succ]
  · rintro c s a t ha ⟨c', rfl, h, h', h''⟩ i
    refine ⟨⟨_, by simp only [finitePower, FConv.iSup, B6.iSup, sumZip, List.ofFn_succ, leg_sup c'.s0 h.2.2.1, leg_sup c'.s1 h'.2.2.1,
      leg_sup c'.s2 h''.2.2.1]; rfl⟩, fun o => ?_⟩
    obtain ⟨d0, h1, h2, h3⟩ := leg_convert h (b6Legs_lt a 0) o (i 0) []
    obtain ⟨d1, h1', h2', h3'⟩ := leg_convert h' (b6Legs_lt a 1) o (i 1) []
    obtain ⟨d2, h1'', h2'', h3''⟩ := leg_convert h'' (b6Legs_lt a 2) o (i 2) []
    refine ⟨.b6 { c' with s0 := d0, s1 := d1, s2 := d2 }, ?_, ⟨_, rfl, h2, h2', h2''⟩, ⟨_, rfl, h3, h3', h3''⟩⟩
    simp [finitePower, FConv.convert, B6.convert, h1, h1', h1'', fB6, List.ofFn_succ]

theorem legOut_sign (s : ℕ) {i j : ℝ} (h : SignType.sign i = SignType.sign j) : legOut s i = legOut s j := by
  unfold legOut
  have : i < 0 ↔ j < 0 := by rw [← sign_eq_neg_one_iff, ← sign_eq_neg_one_iff, h]
  simp only [this]

theorem lip_legSup {E : Type*} [NormedAddCommGroup E] [NormedSpace ℝ E] {i : E → ℝ} (hi : LipBdd i) (s : ℕ) :
    LipBdd fun x => legSup s (i x) := by
  unfold legSup
  split_ifs
  · exact hi.min_zero
  · exact hi
  · exact LipBdd.const 0

theorem fOne_regular (tau : ℝ) : Regular (fOne tau) := by
  refine smooth_regular (fun a i j h => ?_) fun a => ?_
  · have h0 := h 0
    unfold fOneOut
    have : (0 ≤ i 0) ↔ 0 ≤ j 0 := by rw [← sign_nonneg_iff (a := i 0), ← sign_nonneg_iff (a := j 0), h0]
    simp only [this]
  · unfold fOneSup
    split_ifs
    · exact LipBdd.proj 0
    · exact LipBdd.const 0

theorem fTwo_regular (tau il : ℝ) : Regular (fTwo tau il) where
  signs s a o i j h := by simp only [fTwo, legOut_sign _ (h 0)]
  sorted s a := by
    simp only [fTwo, legTimes]
    split_ifs <;> simp
  sup s a := lip_legSup (LipBdd.proj 0) s

theorem fFour_regular (tau il : ℝ) : Regular (fFour tau il) where
  signs s a o i j h := by
    have hn : SignType.sign (-i 0) = SignType.sign (-j 0) := by rw [Left.sign_neg, Left.sign_neg, h 0]
    simp only [fFour, legOut_sign _ (h 0), legOut_sign _ hn]
  sorted s a := sortedSet_inner _
  sup s a := (lip_legSup (LipBdd.proj 0) s.1).add (lip_legSup (LipBdd.proj 0).neg s.2)

theorem fB6_regular (tau il : ℝ) : Regular (fB6 tau il) where
  signs s a o i j h := by funext k; simp only [fB6, legOut_sign _ (h k)]
  sorted s a := sortedSet_inner _
  sup s a := LipBdd.sum Finset.univ (f := fun k (i : Fin 3 → ℝ) => legSup (s k) (i k)) fun k _ => lip_legSup (LipBdd.proj k) (s k)

/-! ## Two converters side by side -/

section pair

variable {n0 n1 : ℕ} {A A0 A1 D0 D1 : Type}

theorem ofFn_split (i : Fin (n0 + n1) → ℝ) :
    List.ofFn i = List.ofFn (fun k => i (Fin.castAdd n1 k)) ++ List.ofFn (fun k => i (Fin.natAdd n0 k)) := by
  rw [← List.ofFn_fin_append]
  congr 1
  exact (Fin.append_castAdd_natAdd).symm

/-- Two machines side by side; `f0 a` and `f1 a` are their parts of the action. -/
def pair (f0 : A → A0) (f1 : A → A1) (M0 : Machine D0 A0 n0) (M1 : Machine D1 A1 n1) : Machine (D0 × D1) A (n0 + n1) where
  times s a := sortedSet (M0.times s.1 (f0 a) ++ M1.times s.2 (f1 a))
  out s a o i := Fin.append (M0.out s.1 (f0 a) o fun k => i (Fin.castAdd n1 k)) (M1.out s.2 (f1 a) o fun k => i (Fin.natAdd n0 k))
  next s a o := (M0.next s.1 (f0 a) o, M1.next s.2 (f1 a) o)
  sup s a i := M0.sup s.1 (f0 a) (fun k => i (Fin.castAdd n1 k)) + M1.sup s.2 (f1 a) (fun k => i (Fin.natAdd n0 k))

/-- continuous converters: the entries of the action one after the other -/
def contPair (M0 : Machine D0 (List ℝ) n0) (M1 : Machine D1 (List ℝ) n1) : Machine (D0 × D1) (List ℝ) (n0 + n1) :=
  pair (fun a => a.take n0) (fun a => a.drop n0) M0 M1

/-- finite converters: an action for each -/
def finitePair (M0 : Machine D0 ℕ n0) (M1 : Machine D1 ℕ n1) : Machine (D0 × D1) (List ℕ) (n0 + n1) :=
  pair (fun a => a.getD 0 0) (fun a => a.getD 1 0) M0 M1

theorem pair_regular {f0 : A → A0} {f1 : A → A1} {M0 : Machine D0 A0 n0} {M1 : Machine D1 A1 n1} (h0 : Regular M0) (h1 : Regular M1) :
    Regular (pair f0 f1 M0 M1) where
  signs s a o i j h := by
    unfold pair
    simp only
    rw [h0.signs _ _ _ _ (fun k => j (Fin.castAdd n1 k)) fun k => h _, h1.signs _ _ _ _ (fun k => j (Fin.natAdd n0 k)) fun k => h _]
  sorted s a := sortedSet_inner _
  sup s a := (LipBdd.const_on (Fin.castAdd n1) (F := id) (h0.sup s.1 (f0 a))).add
    (LipBdd.const_on (Fin.natAdd n0) (F := id) (h1.sup s.2 (f1 a)))

theorem cConv_dim (c : CConv ℝ) (a : List ℝ) (t : ℝ) : (c.setAction a t).1.dim = c.dim := by cases c <;> rfl

theorem fConv_dim (c : FConv ℝ) (a : ℕ) (t : ℝ) : (c.setAction a t).1.dim = c.dim := by cases c <;> rfl

theorem fConv_dim' (c : FConv ℝ) (i : List ℝ) (t : ℝ) : (c.convert i t).1.dim = c.dim := by cases c <;> rfl

theorem contPair_realises {M0 : Machine D0 (List ℝ) n0} {M1 : Machine D1 (List ℝ) n1} {holds0 : CConv ℝ → D0 → Prop}
    {holds1 : CConv ℝ → D1 → Prop} (h0 : Realises contPower M0 (fun a => a.length = n0) holds0)
    (h1 : Realises contPower M1 (fun a => a.length = n1) holds1) (d0 : ∀ c s, holds0 c s → c.dim = n0)
    (d1 : ∀ c s, holds1 c s → c.dim = n1) :
    Realises contMulti (contPair M0 M1) (fun a => a.length = n0 + n1)
      fun cs s => ∃ c0 c1, cs = [c0, c1] ∧ holds0 c0 s.1 ∧ holds1 c1 s.2 := by
  obtain ⟨⟨B0, a0, b0⟩, r0⟩ := h0
  obtain ⟨⟨B1, a1, b1⟩, r1⟩ := h1
  refine ⟨⟨fun cs s a t => ∃ c0 c1, cs = [c0, c1] ∧ (B0 c0 s.1 (a.take n0) t ∧ c0.dim = n0) ∧ B1 c1 s.2 (a.drop n0) t ∧ c1.dim = n1,
    ?_, ?_⟩, ?_⟩
  · rintro cs s a t ⟨c0, c1, rfl, k0, k1⟩ ha
    obtain ⟨c0', s0, w0, k0'⟩ := a0 c0 s.1 (a.take n0) t k0 (by simp [ha])
    obtain ⟨c1', s1, w1, k1'⟩ := a1 c1 s.2 (a.drop n0) t k1 (by simp [ha])
    have hd0 := d0 _ _ k0
    have hd1 := d1 _ _ k1
    have e0 : c0'.dim = n0 := by rw [← hd0, ← cConv_dim c0 (a.take n0) t]; exact congrArg (fun r => r.1.dim) s0.symm
    have e1 : c1'.dim = n1 := by rw [← hd1, ← cConv_dim c1 (a.drop n0) t]; exact congrArg (fun r => r.1.dim) s1.symm
    have ht1 : (a.drop n0).take n1 = a.drop n0 := List.take_of_length_le (by simp [ha])
    simp only [contPower] at s0 s1 w0 w1
    refine ⟨[c0', c1'], ?_, fun i => ?_, ⟨_, _, rfl, ⟨k0', e0⟩, k1', e1⟩⟩
    · simp only [contMulti, cMultiSetAction, cMultiSetActionAux, hd0, hd1, s0, s1, ht1, List.append_nil, contPair, pair]
      rw [← List.map_append, sortedSet_shift]
    · have e2 : (List.ofFn fun k => i (Fin.castAdd n1 k)).length = n0 := by simp
      have e3 : (List.ofFn fun k => i (Fin.natAdd n0 k)).length = n1 := by simp
      simp only [contMulti, cMultiISup, e0, e1, ofFn_split i, List.take_left' e2, List.drop_left' e2, List.take_of_length_le e3.le, w0, w1,
        add_zero, contPair, pair]
  · rintro cs s a t ha ⟨c0, c1, rfl, ⟨k0, e0⟩, k1, e1⟩ i
    obtain ⟨⟨w0, hw0⟩, v0⟩ := b0 c0 s.1 (a.take n0) t (by simp [ha]) k0 fun k => i (Fin.castAdd n1 k)
    obtain ⟨⟨w1, hw1⟩, v1⟩ := b1 c1 s.2 (a.drop n0) t (by simp [ha]) k1 fun k => i (Fin.natAdd n0 k)
    have e2 : (List.ofFn fun k => i (Fin.castAdd n1 k)).length = n0 := by simp
    have e3 : (List.ofFn fun k => i (Fin.natAdd n0 k)).length = n1 := by simp
    simp only [contPower] at hw0 hw1 v0 v1
    refine ⟨⟨_, by simp only [contMulti, cMultiISup, e0, e1, ofFn_split i, List.take_left' e2, List.drop_left' e2,
      List.take_of_length_le e3.le, hw0, hw1]; rfl⟩, fun o => ?_⟩
    obtain ⟨c0', v0, l0, k0'⟩ := v0 o
    obtain ⟨c1', v1, l1, k1'⟩ := v1 o
    have f0 : c0 = c0' := congrArg Prod.fst v0
    have f1 : c1 = c1' := congrArg Prod.fst v1
    subst f0 f1
    have v0' := congrArg Prod.snd v0
    have v1' := congrArg Prod.snd v1
    simp only at v0' v1'
    refine ⟨[c0, c1], ?_, ⟨_, _, rfl, ⟨l0, e0⟩, l1, e1⟩, ⟨_, _, rfl, k0', k1'⟩⟩
    simp only [contMulti, cMultiConvert, e0, e1, ofFn_split i, List.take_left' e2, List.drop_left' e2, List.take_of_length_le e3.le, v0',
      v1', List.append_nil, contPair, pair, List.ofFn_fin_append]
  · rintro cs s ⟨c0, c1, rfl, k0, k1⟩
    exact ⟨_, _, rfl, r0 _ _ k0, r1 _ _ k1⟩

theorem finitePair_realises {M0 : Machine D0 ℕ n0} {M1 : Machine D1 ℕ n1} {l0 l1 : ℕ → Prop} {holds0 : FConv ℝ → D0 → Prop}
    {holds1 : FConv ℝ → D1 → Prop} (h0 : Realises finitePower M0 l0 holds0) (h1 : Realises finitePower M1 l1 holds1)
    (d0 : ∀ c s, holds0 c s → c.dim = n0) (d1 : ∀ c s, holds1 c s → c.dim = n1) :
    Realises finiteMulti (finitePair M0 M1) (fun a => ∃ a0 a1, a = [a0, a1] ∧ l0 a0 ∧ l1 a1)
      fun cs s => ∃ c0 c1, cs = [c0, c1] ∧ holds0 c0 s.1 ∧ holds1 c1 s.2 := by
  obtain ⟨⟨B0, a0, b0⟩, r0⟩ := h0
  obtain ⟨⟨B1, a1, b1⟩, r1⟩ := h1
  refine ⟨⟨fun cs s a t => ∃ c0 c1, cs = [c0, c1] ∧ (B0 c0 s.1 (a.getD 0 0) t ∧ c0.dim = n0) ∧ B1 c1 s.2 (a.getD 1 0) t ∧ c1.dim = n1,
    ?_, ?_⟩, ?_⟩
  · rintro cs s a t ⟨c0, c1, rfl, k0, k1⟩ ⟨x0, x1, rfl, m0, m1⟩
    obtain ⟨c0', s0, w0, k0'⟩ := a0 c0 s.1 x0 t k0 m0
    obtain ⟨c1', s1, w1, k1'⟩ := a1 c1 s.2 x1 t k1 m1
    have e0 : c0'.dim = n0 := by rw [← d0 _ _ k0, ← fConv_dim c0 x0 t]; exact congrArg (fun r => r.1.dim) s0.symm
    have e1 : c1'.dim = n1 := by rw [← d1 _ _ k1, ← fConv_dim c1 x1 t]; exact congrArg (fun r => r.1.dim) s1.symm
    simp only [finitePower] at s0 s1 w0 w1
    refine ⟨[c0', c1'], ?_, fun i => ?_, ⟨_, _, rfl, ⟨k0', e0⟩, k1', e1⟩⟩
    · simp only [finiteMulti, multiSetAction, multiSetActionAux, s0, s1, List.append_nil, finitePair, pair]
      rw [← List.map_append, sortedSet_shift]
      rfl
    · have e2 : (List.ofFn fun k => i (Fin.castAdd n1 k)).length = n0 := by simp
      have e3 : (List.ofFn fun k => i (Fin.natAdd n0 k)).length = n1 := by simp
      simp only [finiteMulti, multiISup, e0, e1, ofFn_split i, List.take_left' e2, List.drop_left' e2, List.take_of_length_le e3.le, w0, w1,
        add_zero, finitePair, pair]
      rfl
  · rintro cs s a t ⟨x0, x1, rfl, m0, m1⟩ ⟨c0, c1, rfl, ⟨k0, e0⟩, k1, e1⟩ i
    obtain ⟨⟨w0, hw0⟩, v0⟩ := b0 c0 s.1 x0 t m0 k0 fun k => i (Fin.castAdd n1 k)
    obtain ⟨⟨w1, hw1⟩, v1⟩ := b1 c1 s.2 x1 t m1 k1 fun k => i (Fin.natAdd n0 k)
    have e2 : (List.ofFn fun k => i (Fin.castAdd n1 k)).length = n0 := by simp
    have e3 : (List.ofFn fun k => i (Fin.natAdd n0 k)).length = n1 := by simp
    simp only [finitePower] at hw0 hw1 v0 v1
    refine ⟨⟨_, by simp only [finiteMulti, multiISup, e0, e1, ofFn_split i, List.take_left' e2, List.drop_left' e2,
      List.take_of_length_le e3.le, hw0, hw1]; rfl⟩, fun o => ?_⟩
    obtain ⟨c0', v0, l0, k0'⟩ := v0 o
    obtain ⟨c1', v1, l1, k1'⟩ := v1 o
    have e0' : c0'.dim = n0 := by
      rw [← e0, ← fConv_dim' c0 (List.ofFn fun k => i (Fin.castAdd n1 k)) (t + o)]; exact congrArg (fun r => r.1.dim) v0.symm
    have e1' : c1'.dim = n1 := by
      rw [← e1, ← fConv_dim' c1 (List.ofFn fun k => i (Fin.natAdd n0 k)) (t + o)]; exact congrArg (fun r => r.1.dim) v1.symm
    refine ⟨[c0', c1'], ?_, ⟨_, _, rfl, ⟨l0, e0'⟩, l1, e1'⟩, ⟨_, _, rfl, k0', k1'⟩⟩
    simp only [finiteMulti, multiConvert, e0, e1, ofFn_split i, List.take_left' e2, List.drop_left' e2, List.take_of_length_le e3.le, v0,
      v1, List.append_nil, finitePair, pair, List.ofFn_fin_append]
    rfl
  · rintro cs s ⟨c0, c1, rfl, k0, k1⟩
    exact ⟨_, _, rfl, r0 _ _ k0, r1 _ _ k1⟩

end pair

/-! ## Supplies -/

/-- The methods of a supply that the physical systems call. -/
structure Source (P : Type) where
  getVoltage : P → ℝ → ℝ → P × List ℝ
  reset : P → P × List ℝ

/-- Supplies with one voltage: `z0` after a reset, then from step to step (of length `d`) the function `up k` of the current drawn at
the beginning of the step and of the voltage before.  Within a step the voltage does not change. -/
def Supplies {P : Type} (src : Source P) (ok : P → Prop) (d : ℝ) (up : ℕ → ℝ → ℝ → ℝ) (z0 : ℝ) : Prop :=
  (∃ before after : P → ℕ → ℝ → Prop,
    (∀ p, ok p → before (src.reset p).1 0 z0) ∧
    (∀ p (k : ℕ) z i, before p k z → ∃ p', src.getVoltage p (k * d) i = (p', [up k i z]) ∧ after p' k (up k i z)) ∧
    (∀ p (k : ℕ) z i, after p k z → ∃ p', src.getVoltage p (k * d) i = (p', [z]) ∧ after p' k z) ∧
    (∀ p k z, after p k z → before p (k + 1) z)) ∧
  ∀ k, LipBdd fun q : ℝ × ℝ => up k q.1 q.2

/-- the ideal supply -/
def idealSource (u : ℝ) : Source Unit := ⟨fun _ t i => ((), Supply.idealVoltage u t i), fun _ => ((), [u])⟩
/-- the single phase supply; `draw` is the random number of a reset -/
def acSource (draw : ℝ) : Source Supply.AC := ⟨fun s t _ => (s, s.get1 t), fun s => Supply.AC.reset Supply.AC.get1 s draw⟩
/-- the supply with resistance and capacitor -/
def rcSource : Source (Supply.RC ℝ) := ⟨fun s t i => ((s.getVoltage t i).1, [(s.getVoltage t i).2]), fun s => (s.reset.1, [s.reset.2])⟩

theorem ideal_supplies (u d : ℝ) : Supplies (idealSource u) (fun _ => True) d (fun _ _ _ => u) u :=
  ⟨⟨fun _ _ z => z = u, fun _ _ z => z = u, fun _ _ => rfl, fun _ _ _ _ _ => ⟨(), rfl, rfl⟩,
    fun _ _ z _ h => ⟨(), by rw [h]; rfl, h⟩, fun _ _ _ h => h⟩, fun _ => LipBdd.const u⟩

theorem ac_supplies (draw A f phi d : ℝ) :
    Supplies (acSource draw) (fun s => s.maxAmp = A ∧ s.f = f ∧ (if s.fixed then s.phi else draw * 2 * Real.pi) = phi) d
      (fun k _ _ => A * Real.sin (2 * Real.pi * f * (k * d) + phi)) (A * Real.sin phi) := by
  refine ⟨⟨fun s _ _ => s.maxAmp = A ∧ s.f = f ∧ s.phi = phi,
    fun s k z => (s.maxAmp = A ∧ s.f = f ∧ s.phi = phi) ∧ z = A * Real.sin (2 * Real.pi * f * (k * d) + phi), ?_, ?_, ?_, ?_⟩,
    fun k => LipBdd.const _⟩
  · rintro s ⟨h1, h2, h3⟩
    simp only [acSource, Supply.AC.reset]
    split_ifs at h3 ⊢ with h
    · exact ⟨h1, h2, h3⟩
    · exact ⟨h1, h2, h3⟩
  · rintro s k z i ⟨rfl, rfl, rfl⟩
    exact ⟨s, rfl, ⟨rfl, rfl, rfl⟩, rfl⟩
  · rintro s k z i ⟨⟨rfl, rfl, rfl⟩, rfl⟩
    exact ⟨s, rfl, ⟨rfl, rfl, rfl⟩, rfl⟩
  · exact fun s k z h => h.1

/-- voltage of the capacitor after a step with the current `i`, by one Euler step -/
def rcVoltage (u0 r c d : ℝ) (k : ℕ) (i z : ℝ) : ℝ := if k = 0 then z else z + d * ((u0 - z - r * i) / (r * c))

theorem rc_supplies (u0 r c d : ℝ) : Supplies rcSource (fun s => s.u0 = u0 ∧ s.r = r ∧ s.c = c) d (rcVoltage u0 r c d) u0 := by
  refine ⟨⟨fun s k z => (s.u0 = u0 ∧ s.r = r ∧ s.c = c) ∧ s.solver.y = z ∧ s.solver.t = if k = 0 then 0 else k * d - d,
    fun s k z => (s.u0 = u0 ∧ s.r = r ∧ s.c = c) ∧ s.solver.y = z ∧ s.solver.t = k * d, ?_, ?_, ?_, ?_⟩, fun k => ?_⟩
  · rintro s ⟨rfl, rfl, rfl⟩
    exact ⟨⟨rfl, rfl, rfl⟩, rfl, rfl⟩
  · rintro s k z i ⟨⟨rfl, rfl, rfl⟩, rfl, h⟩
    have e : (s.getVoltage (k * d) i).2 = rcVoltage s.u0 s.r s.c d k i s.solver.y := by
      unfold rcVoltage
      simp only [Supply.RC.getVoltage, GEM.Solver.Euler.integrateOneStep, Supply.RC.rhs, smul_eq_mul, h]
      split_ifs with hk
      · rw [hk]; simp
      · ring
    exact ⟨(s.getVoltage (k * d) i).1, by simp only [rcSource, e], ⟨rfl, rfl, rfl⟩, e, rfl⟩
  · rintro s k z i ⟨⟨rfl, rfl, rfl⟩, rfl, h⟩
    have e : (s.getVoltage (k * d) i).2 = s.solver.y := by
      simp only [Supply.RC.getVoltage, GEM.Solver.Euler.integrateOneStep, h]
      simp
    exact ⟨(s.getVoltage (k * d) i).1, by simp only [rcSource, e], ⟨rfl, rfl, rfl⟩, e, rfl⟩
  · rintro s k z ⟨h1, h2, h3⟩
    refine ⟨h1, h2, ?_⟩
    rw [h3, if_neg (by omega)]
    push_cast
    ring
  · unfold rcVoltage
    have h1 : LipBdd fun q : ℝ × ℝ => q.1 := fun R => ⟨1, zero_le_one, fun x y _ _ => by rw [one_mul]; exact norm_fst_le (x - y)⟩
    have h2 : LipBdd fun q : ℝ × ℝ => q.2 := fun R => ⟨1, zero_le_one, fun x y _ _ => by rw [one_mul]; exact norm_snd_le (x - y)⟩
    split_ifs
    · exact h2
    · exact h2.add ((LipBdd.const d).mul ((((LipBdd.const u0).sub h2).sub ((LipBdd.const r).mul h1)).div_const _))

/-! ## Outputs that do not depend on the currents -/

theorem dead_zero (tau i : ℝ) : dead tau 0 i = 0 := by simp [dead]

theorem clip_clip01 (x : ℝ) : clip (clip x 0 1) 0 1 = clip x 0 1 := by
  have := clip_mem (x := x) (zero_le_one (α := ℝ))
  exact clip_of_mem this.1 this.2

/-- the action as duty cycle of a half bridge -/
theorem duty_half (x : ℝ) : clip (1 / 2 * (x + 1)) 0 1 - 1 / 2 = clip x (-1) 1 / 2 := by
  unfold clip
  rcases le_total x (-1) with h | h
  · rw [max_eq_right (by linarith : 1 / 2 * (x + 1) ≤ 0), max_eq_right h]
    norm_num
  · rw [max_eq_left (by linarith : 0 ≤ 1 / 2 * (x + 1)), max_eq_left h]
    rcases le_total x 1 with h2 | h2
    · rw [min_eq_left (by linarith : 1 / 2 * (x + 1) ≤ 1), min_eq_left h2]; ring
    · rw [min_eq_right (by linarith : 1 ≤ 1 / 2 * (x + 1)), min_eq_right h2]; ring

theorem duty_four (x : ℝ) : clip (1 / 2 * (x + 1)) 0 1 - clip (-(1 / 2) * (x - 1)) 0 1 = clip x (-1) 1 := by
  have h1 := duty_half x
  have h2 := duty_half (-x)
  have e : 1 / 2 * (-x + 1) = -(1 / 2) * (x - 1) := by ring
  have h3 : clip (-x) (-1) 1 = -clip x (-1) 1 := by
    unfold clip
    rcases le_total x (-1) with h | h
    · rw [max_eq_right h, max_eq_left (by linarith : -1 ≤ -x), min_eq_right (by linarith : (1 : ℝ) ≤ -x),
        min_eq_left (by norm_num : (-1 : ℝ) ≤ 1)]
      norm_num
    · rw [max_eq_left h]
      rcases le_total x 1 with h2 | h2
      · rw [min_eq_left h2, max_eq_left (by linarith : -1 ≤ -x), min_eq_left (by linarith : -x ≤ 1)]
      · rw [min_eq_right h2, max_eq_right (by linarith : -x ≤ -1), min_eq_left (by norm_num : (-1 : ℝ) ≤ 1)]
  rw [e, h3] at h2
  linarith

/-- Without interlocking time a two quadrant converter delivers the action cut to `[0, 1]`. -/
theorem cTwoOut_plain (tau x : ℝ) (i : Fin 1 → ℝ) : cTwoOut tau 0 [x] i = fun _ => clip x 0 1 := by
  unfold cTwoOut
  simp only [dead_zero, sub_zero, List.headD_cons, clip_clip01]

/-- Without interlocking time a four quadrant converter delivers the action cut to `[-1, 1]`. -/
theorem cFourOut_plain (tau x : ℝ) (i : Fin 1 → ℝ) : cFourOut tau 0 [x] i = fun _ => clip x (-1) 1 := by
  unfold cFourOut
  simp only [dead_zero, sub_zero, List.headD_cons, clip_clip01, duty_four]

/-- Without interlocking time a three-phase bridge delivers half of the action cut to `[-1, 1]`, in every phase. -/
theorem cB6Out_plain (tau : ℝ) (a : List ℝ) (i : Fin 3 → ℝ) : cB6Out tau 0 a i = fun k : Fin 3 => clip (a.getD k 0) (-1) 1 / 2 := by
  unfold cB6Out
  simp only [dead_zero, sub_zero, clip_clip01, duty_half]

theorem steady_of_const {n : ℕ} {out : (Fin n → ℝ) → Fin n → ℝ} (h : ∀ i j, out i = out j) (i : Fin n → ℝ) : Steady out i :=
  Eventually.of_forall fun j => h j i

end

end GEM.Props
