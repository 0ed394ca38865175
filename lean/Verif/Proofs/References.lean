import Mathlib.Tactic
import Verif.Spec.References

/-!
# Lemmas about reference generators
-/

set_option linter.unusedSectionVars false

namespace GEM.Refs

open GEM

variable {G K σ : Type}

/-! ## Trajectories stay inside the margin -/

theorem walk_inside (m : ℝ × ℝ) (hm : m.1 ≤ m.2) : ∀ (xs : List ℝ) (v : ℝ), Inside m (walk m v xs)
  | [], _ => by simp [walk, Inside]
  | x :: xs, v => by
    intro y hy
    simp only [walk, List.mem_cons] at hy
    rcases hy with rfl | hy
    · split_ifs <;> constructor <;> linarith
    · exact walk_inside m hm xs _ y hy

theorem walk_length (m : ℝ × ℝ) : ∀ (xs : List ℝ) (v : ℝ), (walk m v xs).length = xs.length
  | [], _ => rfl
  | x :: xs, v => by simp only [walk, List.length_cons, walk_length m xs]

theorem shape_inside (m : ℝ × ℝ) (hm : m.1 ≤ m.2) (a o : ℝ) (x : List ℝ) : Inside m (shape m a o x) := by
  intro y hy
  simp only [shape, List.mem_map] at hy
  obtain ⟨t, -, rfl⟩ := hy
  exact ⟨le_min (le_max_right _ _) hm, min_le_right _ _⟩

/-- Whatever trajectories `_reset_reference` returns lie inside the margin. -/
def Bounded (c : SubCfg G ℝ) : Prop :=
  ∀ m v n g l, m.1 ≤ m.2 → (c.make m v n g).2 = .ok l → Inside m l

theorem walkMake_inside (R : Rng G) (noise : ℝ → ℕ → G → G × List ℝ) (s : Range) (m : ℝ × ℝ) (v : ℝ) (n : ℤ) (g : G)
    (l : List ℝ) (hm : m.1 ≤ m.2) (h : (walkMake R noise s m v n g).2 = .ok l) : Inside m l := by
  simp only [walkMake] at h
  split at h
  · simp at h
  · split at h
    · simp at h
    · simp only [Except.ok.injEq] at h
      subst h
      exact walk_inside m hm _ _

theorem sinMake_inside (R : Rng G) (w : Wave) (m : ℝ × ℝ) (v : ℝ) (n : ℤ) (g : G) (l : List ℝ) (hm : m.1 ≤ m.2)
    (h : (sinMake R w m v n g).2 = .ok l) : Inside m l := by
  simp only [sinMake] at h
  split at h
  · simp at h
  · split at h
    · simp at h
    · simp only [Except.ok.injEq] at h
      subst h
      exact shape_inside m hm _ _ _

theorem sawMake_inside (R : Rng G) (w : Wave) (m : ℝ × ℝ) (v : ℝ) (n : ℤ) (g : G) (l : List ℝ) (hm : m.1 ≤ m.2)
    (h : (sawMake R w m v n g).2 = .ok l) : Inside m l := by
  simp only [sawMake] at h
  split at h
  · simp at h
  · split at h
    · simp at h
    · simp only [Except.ok.injEq] at h
      subst h
      exact shape_inside m hm _ _ _

theorem triMake_inside (R : Rng G) (w : Wave) (m : ℝ × ℝ) (v : ℝ) (n : ℤ) (g : G) (l : List ℝ) (hm : m.1 ≤ m.2)
    (h : (triMake R w m v n g).2 = .ok l) : Inside m l := by
  simp only [triMake] at h
  split at h
  · simp at h
  · split at h
    · simp at h
    · simp only [Except.ok.injEq] at h
      subst h
      exact shape_inside m hm _ _ _

theorem stepMake_inside (R : Rng G) (w : Wave) (m : ℝ × ℝ) (v : ℝ) (n : ℤ) (g : G) (l : List ℝ) (hm : m.1 ≤ m.2)
    (h : (stepMake R w m v n g).2 = .ok l) : Inside m l := by
  simp only [stepMake] at h
  split at h
  · simp at h
  · split at h
    · simp at h
    · split at h
      · simp at h
      · simp only [Except.ok.injEq] at h
        subst h
        exact shape_inside m hm _ _ _

/-! ## Single observations -/

/-- the stored trajectory lies inside the margin -/
def StInside (st : SubSt G ℝ) : Prop := ∀ l, st.reference = some l → Inside st.margin l

theorem newSub_margin (c : SubCfg G K) (st : SubSt G K) : (newSub c st).1.margin = st.margin := by
  simp only [newSub]; split
  · rfl
  · split <;> rfl

theorem newSub_inside {c : SubCfg G ℝ} (hc : Bounded c) {st : SubSt G ℝ} (hm : st.margin.1 ≤ st.margin.2)
    (h : StInside st) : StInside (newSub c st).1 := by
  intro l hl
  rw [newSub_margin]
  simp only [newSub] at hl
  split at hl
  · exact h l hl
  · split at hl
    · exact h l hl
    · rename_i hr
      simp only [Option.some.injEq] at hl
      subst hl
      exact hc _ _ _ _ _ hm hr

theorem nextValue_reference (st : SubSt G K) :
    (nextValue st).1.reference = st.reference ∧ (nextValue st).1.margin = st.margin := by
  simp only [nextValue]; split
  · exact ⟨rfl, rfl⟩
  · split <;> exact ⟨rfl, rfl⟩

theorem nextValue_inside {st : SubSt G ℝ} (h : StInside st) :
    ∀ o, (nextValue st).2 = .ok o → Inside st.margin o := by
  intro o ho
  simp only [nextValue] at ho
  split at ho
  · simp at ho
  · rename_i l hl
    split at ho
    · simp at ho
    · rename_i v hv
      simp only [Except.ok.injEq] at ho
      subst ho
      intro x hx
      simp only [List.mem_singleton] at hx
      subst hx
      exact h l hl _ (List.mem_of_getElem? hv)

theorem subObs_inside {c : SubCfg G ℝ} (hc : Bounded c) {st : SubSt G ℝ} (hm : st.margin.1 ≤ st.margin.2)
    (h : StInside st) : StInside (subObs c st).1 ∧ (subObs c st).1.margin = st.margin ∧
      ∀ o, (subObs c st).2 = .ok o → Inside st.margin o := by
  have key : ∀ s : SubSt G ℝ, StInside s → StInside (nextValue s).1 := by
    intro s hs l hl
    rw [(nextValue_reference s).1] at hl
    rw [(nextValue_reference s).2]
    exact hs l hl
  simp only [subObs]
  split
  · simp only [Call.bind]
    have h1 := newSub_inside hc hm h
    have h2 := newSub_margin c st
    split
    · refine ⟨key _ h1, by rw [(nextValue_reference _).2, h2], ?_⟩
      intro o ho
      have := nextValue_inside h1 o ho
      rwa [h2] at this
    · exact ⟨h1, h2, by simp⟩
  · exact ⟨key _ h, (nextValue_reference _).2, nextValue_inside h⟩

theorem baseReset_inside {c : SubCfg G ℝ} (hc : Bounded c) {st : SubSt G ℝ} (hm : st.margin.1 ≤ st.margin.2)
    (h : StInside st) : StInside (baseReset (subRef c) (subObs c) st).1 ∧
      (baseReset (subRef c) (subObs c) st).1.margin = st.margin ∧
      ∀ r o, (baseReset (subRef c) (subObs c) st).2 = .ok (r, o) → Inside st.margin o := by
  simp only [baseReset, subRef, Call.bind]
  obtain ⟨h1, h2, h3⟩ := subObs_inside hc hm h
  split
  · rename_i a ha
    refine ⟨h1, h2, ?_⟩
    intro r o hro
    simp only [Except.ok.injEq, Prod.mk.injEq] at hro
    obtain ⟨-, rfl⟩ := hro
    exact h3 _ ha
  · exact ⟨h1, h2, by simp⟩

theorem subResetWith_inside {c : SubCfg G ℝ} (hc : Bounded c) {st : SubSt G ℝ} (hm : st.margin.1 ≤ st.margin.2)
    (h : StInside st) (init : Option (List ℝ)) : StInside (subResetWith c st init).1 ∧
      (subResetWith c st init).1.margin = st.margin ∧
      ∀ r o, (subResetWith c st init).2 = .ok (r, o) → Inside st.margin o := by
  simp only [subResetWith]
  split
  · exact baseReset_inside (st := { st with value := 0, gen := c.spawn st.spawned, spawned := st.spawned + 1, len := -1 })
      hc hm h
  · split
    · exact ⟨h, rfl, by simp⟩
    · rename_i v _
      exact baseReset_inside
        (st := { st with value := v, gen := c.spawn st.spawned, spawned := st.spawned + 1, len := -1 }) hc hm h

theorem subReset_inside {c : SubCfg G ℝ} (hc : Bounded c) {st : SubSt G ℝ} (hm : st.margin.1 ≤ st.margin.2)
    (h : StInside st) (init : Option (List ℝ)) : StInside (subReset c st init).1 ∧
      (subReset c st init).1.margin = st.margin ∧
      ∀ r o, (subReset c st init).2 = .ok (r, o) → Inside st.margin o := by
  simp only [subReset]
  split
  · rename_i draw _
    exact subResetWith_inside (st := { st with gen := (draw st.gen).1 }) hc hm h _
  · exact subResetWith_inside hc hm h _

/-! ## Sub-episodes in a row -/

theorem newSub_episode {c : SubCfg G K} (hc : Steady c) (st : SubSt G K) :
    newSub c st = ({ st with
      k := 0, len := (episode c st.margin st.gen st.value).2.length, gen := (episode c st.margin st.gen st.value).1,
      reference := some (episode c st.margin st.gen st.value).2 }, .ok ()) ∧
      1 ≤ (episode c st.margin st.gen st.value).2.length := by
  obtain ⟨n, l, h1, h2, h3, h4⟩ := hc st.margin st.value st.gen
  simp only [newSub, episode, h1, h3]
  refine ⟨by rw [h4], by omega⟩

/-- after `i + 1` observations the generator is inside sub-episode `j` at position `k` -/
structure At (c : SubCfg G K) (m : K × K) (g : G) (v : K) (i j : ℕ) (st : SubSt G K) : Prop where
  margin : st.margin = m
  gen : st.gen = (episodes c m g v j).1
  reference : st.reference = some (episodes c m g v j).2
  len : st.len = ((episodes c m g v j).2.length : ℤ)
  pos : 1 ≤ st.k
  le : st.k ≤ (episodes c m g v j).2.length
  count : i + 1 = (joined c m g v j).length + st.k
  value : (episodes c m g v j).2[st.k - 1]? = some st.value

theorem joined_succ (c : SubCfg G K) (m : K × K) (g : G) (v : K) (j : ℕ) :
    joined c m g v (j + 1) = joined c m g v j ++ (episodes c m g v j).2 := by
  simp [joined, List.range_succ]

theorem joined_prefix (c : SubCfg G K) (m : K × K) (g : G) (v : K) {j j' : ℕ} (h : j ≤ j') :
    joined c m g v j <+: joined c m g v j' := by
  induction h with
  | refl => exact List.prefix_refl _
  | step h ih => exact ih.trans (by rw [joined_succ]; exact List.prefix_append _ _)

theorem episodes_length {c : SubCfg G K} (hc : Steady c) (m : K × K) (g : G) (v : K) (j : ℕ) :
    1 ≤ (episodes c m g v j).2.length := by
  have key : ∀ g v, 1 ≤ (episode c m g v).2.length := by
    intro g v
    obtain ⟨n, l, h1, h2, h3, h4⟩ := hc m v g
    simp only [episode, h1, h3]; omega
  cases j with
  | zero => exact key _ _
  | succ j => exact key _ _

theorem joined_length {c : SubCfg G K} (hc : Steady c) (m : K × K) (g : G) (v : K) (j : ℕ) :
    j ≤ (joined c m g v j).length := by
  induction j with
  | zero => simp
  | succ j ih =>
    rw [joined_succ, List.length_append]
    have := episodes_length hc m g v j
    omega

theorem At.joined {c : SubCfg G K} {m : K × K} {g : G} {v : K} {i j : ℕ} {st : SubSt G K} (hc : Steady c)
    (h : At c m g v i j st) : (joined c m g v (i + 1))[i]? = some st.value := by
  have hj : j ≤ i := by
    have h1 := joined_length hc m g v j
    have h2 := h.count
    have h3 := h.le
    have h4 := h.pos
    omega
  obtain ⟨t, ht⟩ := joined_prefix c m g v (Nat.succ_le_succ hj)
  have hi : i = (Refs.joined c m g v j).length + (st.k - 1) := by have := h.count; have := h.pos; omega
  rw [show i + 1 = i.succ from rfl, ← ht, show j.succ = j + 1 from rfl, joined_succ]
  have hlt : st.k - 1 < (episodes c m g v j).2.length := by have := h.le; have := h.pos; omega
  rw [List.append_assoc, hi, List.getElem?_append_right (by omega)]
  rw [show (Refs.joined c m g v j).length + (st.k - 1) - (Refs.joined c m g v j).length = st.k - 1 by omega]
  rw [List.getElem?_append_left hlt]
  exact h.value

/-- The first observation after `len := -1`. -/
theorem first_obs {c : SubCfg G K} (hc : Steady c) (st : SubSt G K) (hl : st.len ≤ st.k) :
    ∃ st', subObs c st = (st', .ok [st'.value]) ∧ At c st.margin st.gen st.value 0 0 st' ∧
      st'.spawned = st.spawned := by
  obtain ⟨h1, h2⟩ := newSub_episode hc st
  simp only [subObs, if_pos hl, h1, Call.bind, nextValue]
  obtain ⟨x, hx⟩ : ∃ x, (episode c st.margin st.gen st.value).2[0]? = some x :=
    ⟨_, List.getElem?_eq_getElem (by omega)⟩
  simp only [hx]
  refine ⟨_, rfl, ⟨rfl, rfl, rfl, rfl, ?_, ?_, ?_, ?_⟩, rfl⟩
  · simp
  · simpa [episodes] using h2
  · simp [Refs.joined]
  · simpa [episodes] using hx

theorem next_obs {c : SubCfg G K} (hc : Steady c) {m : K × K} {g : G} {v : K} {i j : ℕ} {st : SubSt G K}
    (h : At c m g v i j st) :
    ∃ st' j', subObs c st = (st', .ok [st'.value]) ∧ At c m g v (i + 1) j' st' ∧ st'.spawned = st.spawned := by
  by_cases hl : st.len ≤ st.k
  · have hk : st.k = (episodes c m g v j).2.length := by have := h.len; have := h.le; omega
    have hlast : (episodes c m g v j).2.getLastD v = st.value := by
      have := h.value
      rw [hk] at this
      rw [List.getLastD_eq_getLast?, List.getLast?_eq_getElem?, this]; rfl
    obtain ⟨st', h1, h2, h3⟩ := first_obs hc st hl
    refine ⟨st', j + 1, h1, ?_, h3⟩
    have he : episodes c m g v (j + 1) = episode c st.margin st.gen st.value := by
      simp only [episodes]; rw [hlast, h.gen, h.margin]
    have h0 : episodes c st.margin st.gen st.value 0 = episode c st.margin st.gen st.value := rfl
    refine ⟨h2.margin.trans h.margin, by rw [h2.gen, h0, he], by rw [h2.reference, h0, he], by rw [h2.len, h0, he], h2.pos,
      by rw [he, ← h0]; exact h2.le, ?_, by rw [he, ← h0]; exact h2.value⟩
    rw [joined_succ, List.length_append, ← hk, ← h.count]
    have := h2.count
    simp [Refs.joined] at this
    omega
  · have hk : st.k < (episodes c m g v j).2.length := by have := h.len; omega
    simp only [subObs, if_neg hl, nextValue, h.reference]
    rw [List.getElem?_eq_getElem hk]
    refine ⟨_, j, rfl, ⟨h.margin, h.gen, rfl, h.len, ?_, ?_, ?_, ?_⟩, rfl⟩
    · simp
    · simpa using hk
    · have := h.count; simp only; omega
    · simp [hk]

theorem subReset_at [Zero K] {c : SubCfg G K} (hc : Steady c) (st : SubSt G K) (v : K) :
    ∃ st', baseReset (subRef c) (subObs c)
        { st with value := v, gen := c.spawn st.spawned, spawned := st.spawned + 1, len := -1 } =
          (st', .ok (place c.mask v, [st'.value])) ∧ At c st.margin (c.spawn st.spawned) v 0 0 st' ∧
            st'.spawned = st.spawned + 1 := by
  obtain ⟨st', h1, h2, h3⟩ := first_obs hc
    { st with value := v, gen := c.spawn st.spawned, spawned := st.spawned + 1, len := -1 } (by simp)
  refine ⟨st', ?_, h2, h3⟩
  simp only [baseReset, subRef, Call.bind, h1]

/-! ## Concrete generators are steady -/

theorem currentValue_pair (R : Rng G) (a b : ℝ) (g : G) :
    (currentValue R (.pair a b) g).2 = .ok ((b - a) * (R.uniform g).2 + a) := rfl

/-- python numbers and pairs -/
def Range.plain : Range → Prop
  | .npnum _ => False
  | _ => True

theorem currentValue_ok (R : Rng G) {r : Range} (h : r.plain) (g : G) : ∃ x, (currentValue R r g).2 = .ok x := by
  cases r with
  | num x => exact ⟨x, rfl⟩
  | npnum x => exact h.elim
  | pair a b => exact ⟨_, rfl⟩

/-- the least value of a range -/
noncomputable def Range.least : Range → ℝ
  | .num x => x
  | .npnum x => x
  | .pair a b => min a b

/-- the greatest value of a range -/
noncomputable def Range.greatest : Range → ℝ
  | .num x => x
  | .npnum x => x
  | .pair a b => max a b

theorem currentValue_bounds {R : Rng G} (hR : RngOk R) (r : Range) (g : G) (x : ℝ)
    (h : (currentValue R r g).2 = .ok x) : r.least ≤ x ∧ x ≤ r.greatest := by
  cases r with
  | num y => simp only [currentValue, Except.ok.injEq] at h; subst h; exact ⟨le_refl _, le_refl _⟩
  | npnum y => simp [currentValue] at h
  | pair a b =>
    simp only [currentValue, Except.ok.injEq] at h
    obtain ⟨h0, h1⟩ := hR.uniform g
    subst h
    simp only [Range.least, Range.greatest]
    rcases le_total a b with hab | hab
    · rw [min_eq_left hab, max_eq_right hab]
      constructor <;> nlinarith
    · rw [min_eq_right hab, max_eq_left hab]
      constructor <;> nlinarith

theorem lenDraw_ok {R : Rng G} (hR : RngOk R) {r : Range} (h : r.plain) (h1 : 1 ≤ r.least) (g : G) :
    ∃ n, (lenDraw R r g).2 = .ok n ∧ 1 ≤ n ∧ (n : ℝ) ≤ r.greatest ∧ r.least < n + 1 := by
  obtain ⟨x, hx⟩ := currentValue_ok R h g
  have hb := currentValue_bounds hR r g x hx
  refine ⟨pyInt x, by simp [lenDraw, hx, Except.map], ?_, ?_, ?_⟩
  · rw [pyInt, if_pos (by linarith)]
    exact Int.le_floor.2 (by push_cast; linarith)
  · rw [pyInt, if_pos (by linarith)]
    exact le_trans (Int.floor_le x) hb.2
  · rw [pyInt, if_pos (by linarith)]
    exact lt_of_le_of_lt hb.1 (Int.lt_floor_add_one x)

/-- `_reset_reference` yields as many values as asked for. -/
def Full (make : ℝ × ℝ → ℝ → ℤ → G → G × Except Err (List ℝ)) : Prop :=
  ∀ m v (n : ℕ) g, ∃ l, (make m v n g).2 = .ok l ∧ l.length = n

theorem steady_of {c : SubCfg G ℝ} {R : Rng G} (hR : RngOk R) {r : Range} (hp : r.plain) (h1 : 1 ≤ r.least)
    (hd : c.drawLen = lenDraw R r) (hf : Full c.make) : Steady c := by
  intro m v g
  obtain ⟨n, hn, h2, -, -⟩ := lenDraw_ok hR hp h1 g
  obtain ⟨l, hl, hlen⟩ := hf m v n.toNat (c.drawLen g).1
  refine ⟨n, l, by rw [hd]; exact hn, h2, ?_, by rw [hlen]; omega⟩
  rw [show ((n.toNat : ℕ) : ℤ) = n by omega] at hl
  exact hl

theorem logRange_plain {a b : ℝ} : (logRange (.pair a b)).plain := trivial

theorem walkMake_full {R : Rng G} {noise : ℝ → ℕ → G → G × List ℝ} (hn : ∀ s n g, (noise s n g).2.length = n)
    (a b : ℝ) : Full (walkMake R noise (.pair a b)) := by
  intro m v n g
  obtain ⟨x, hx⟩ := currentValue_ok R (r := logRange (.pair a b)) trivial g
  simp only [walkMake, hx]
  rw [if_neg (by omega)]
  exact ⟨_, rfl, by rw [walk_length, hn]; simp⟩

theorem waveParams_ok (R : Rng G) (w : Wave) (ha : w.amplitude.plain) (hf : w.frequency.plain)
    (ho : ∃ a b, w.offset = .pair a b) (lo hi : ℝ) (g : G) :
    ∃ amp freq off g1, (currentValue R w.amplitude g).2 = .ok amp ∧ (currentValue R w.frequency g1).2 = .ok freq ∧
      (waveParams R w lo hi g).2 = .ok (amp, freq, off) := by
  obtain ⟨amp, h1⟩ := currentValue_ok R ha g
  obtain ⟨freq, h2⟩ := currentValue_ok R hf (currentValue R w.amplitude g).1
  obtain ⟨a, b, ho⟩ := ho
  obtain ⟨off, h3⟩ := currentValue_ok R (r := clipRange (lo + amp) (hi - amp) w.offset) (by rw [ho]; trivial)
    (currentValue R w.frequency (currentValue R w.amplitude g).1).1
  exact ⟨amp, freq, off, _, h1, h2, by simp only [waveParams, h1, h2, h3]⟩

theorem times_length (tau : ℝ) (n : ℕ) : (times tau n).length = n := by simp [times]

theorem roll_length (x : List ℝ) (s : ℤ) : (roll x s).length = x.length := by simp [roll]

theorem sinMake_full (R : Rng G) (w : Wave) (ha : w.amplitude.plain) (hf : w.frequency.plain)
    (ho : ∃ a b, w.offset = .pair a b) : Full (sinMake R w) := by
  intro m v n g
  obtain ⟨amp, freq, off, g1, -, -, h⟩ := waveParams_ok R w ha hf ho (-m.2) m.2 g
  simp only [sinMake, h]
  rw [if_neg (by omega)]
  exact ⟨_, rfl, by simp [shape, sinWave, times_length]⟩

theorem sawMake_full (R : Rng G) (w : Wave) (ha : w.amplitude.plain) (hf : w.frequency.plain)
    (ho : ∃ a b, w.offset = .pair a b) : Full (sawMake R w) := by
  intro m v n g
  obtain ⟨amp, freq, off, g1, -, -, h⟩ := waveParams_ok R w ha hf ho (-m.2) m.2 g
  simp only [sawMake, h]
  rw [if_neg (by omega)]
  exact ⟨_, rfl, by simp [shape, sawWave, times_length]⟩

theorem triMake_full (R : Rng G) (w : Wave) (ha : w.amplitude.plain) (hf : w.frequency.plain)
    (ho : ∃ a b, w.offset = .pair a b) : Full (triMake R w) := by
  intro m v n g
  obtain ⟨amp, freq, off, g1, -, -, h⟩ := waveParams_ok R w ha hf ho (-m.2) m.2 g
  simp only [triMake, h]
  rw [if_neg (by omega)]
  exact ⟨_, rfl, by simp [shape, sawWave, times_length]⟩

theorem stepMake_full {R : Rng G} (hR : RngOk R) (w : Wave) (ha : w.amplitude.plain) (hf : w.frequency.plain)
    (hf0 : 0 < w.frequency.least) (ho : ∃ a b, w.offset = .pair a b) : Full (stepMake R w) := by
  intro m v n g
  obtain ⟨amp, freq, off, g1, -, h2, h⟩ := waveParams_ok R w ha hf ho m.1 m.2 g
  have hfreq : freq ≠ 0 := by have := (currentValue_bounds hR _ _ _ h2).1; linarith
  simp only [stepMake, h]
  rw [if_neg (by omega), if_neg hfreq]
  exact ⟨_, rfl, by simp [shape, stepWave, roll_length, times_length]⟩

/-! ## Multiple generators -/

theorem each_ok {α : Type} (m : RefGen σ K → σ → Call σ α) :
    ∀ (gs : List (RefGen σ K)) (ss : List σ) (l : List α), (each m gs ss).2 = .ok l → gs.length = ss.length →
      l.length = gs.length ∧ (each m gs ss).1.length = ss.length ∧
      ∀ (j : ℕ) (g : RefGen σ K) (s : σ), gs[j]? = some g → ss[j]? = some s →
        ∃ a, l[j]? = some a ∧ (m g s).2 = .ok a ∧ (each m gs ss).1[j]? = some (m g s).1
  | [], [], l, h, _ => by simp only [each, Except.ok.injEq] at h; subst h; simp [each]
  | [], _ :: _, _, _, hl => by simp at hl
  | _ :: _, [], _, _, hl => by simp at hl
  | g :: gs, s :: ss, l, h, hl => by
    simp only [each] at h ⊢
    cases hr : (m g s).2 with
    | error e => simp [hr] at h
    | ok a =>
      simp only [hr] at h ⊢
      cases hq : (each m gs ss).2 with
      | error e => simp [hq, Except.map] at h
      | ok l' =>
        simp only [hq, Except.map, Except.ok.injEq] at h
        subst h
        obtain ⟨h1, h2, h3⟩ := each_ok m gs ss l' hq (by simpa using hl)
        refine ⟨by simp [h1], by simp [h2], ?_⟩
        intro j g' s' hg hs
        cases j with
        | zero =>
          simp only [List.getElem?_cons_zero, Option.some.injEq] at hg hs ⊢
          subst hg; subst hs
          exact ⟨a, rfl, hr, rfl⟩
        | succ j =>
          simp only [List.getElem?_cons_succ] at hg hs ⊢
          exact h3 j g' s' hg hs

/-- if every sub-generator answers, so does the loop -/
theorem each_total {α : Type} (m : RefGen σ K → σ → Call σ α) :
    ∀ (gs : List (RefGen σ K)) (ss : List σ), (∀ g ∈ gs, ∀ s, ∃ a, (m g s).2 = .ok a) →
      ∃ l, (each m gs ss).2 = .ok l
  | [], ss, _ => ⟨[], by simp [each]⟩
  | g :: gs, [], _ => ⟨[], by simp [each]⟩
  | g :: gs, s :: ss, h => by
    obtain ⟨a, ha⟩ := h g (by simp) s
    obtain ⟨l, hl⟩ := each_total m gs ss (fun g hg => h g (by simp [hg]))
    exact ⟨a :: l, by simp [each, ha, hl, Except.map]⟩

/-- entry `i` of a sum of arrays of length `n` -/
theorem foldlM_addArr [AddCommMonoid K] (n : ℕ) : ∀ (l : List (List K)) (a : List K), a.length = n →
    (∀ b ∈ l, b.length = n) → ∃ r, l.foldlM addArr a = .ok r ∧ r.length = n ∧
      ∀ i : ℕ, i < n → r[i]? = some (a.getD i 0 + (l.map (fun b => b.getD i 0)).sum)
  | [], a, ha, _ => ⟨a, rfl, ha, fun i hi => by
      simp only [List.map_nil, List.sum_nil, add_zero, List.getD_eq_getElem?_getD]
      rw [List.getElem?_eq_getElem (by omega)]; rfl⟩
  | b :: l, a, ha, hl => by
    have hb : b.length = n := hl b (by simp)
    obtain ⟨r, h1, h2, h3⟩ := foldlM_addArr n l (List.zipWith (· + ·) a b) (by simp [ha, hb])
      (fun c hc => hl c (by simp [hc]))
    refine ⟨r, ?_, h2, ?_⟩
    · simp only [List.foldlM_cons, addArr, ha, hb, if_true]
      exact h1
    · intro i hi
      rw [h3 i hi]
      simp only [List.map_cons, List.sum_cons, List.getD_eq_getElem?_getD, List.getElem?_zipWith]
      rw [List.getElem?_eq_getElem (l := a) (by omega), List.getElem?_eq_getElem (l := b) (by omega)]
      simp [add_assoc]

theorem sum_single [AddCommMonoid K] : ∀ (l : List K) (j : ℕ) (x : K), l[j]? = some x →
    (∀ (j' : ℕ) (y : K), j' ≠ j → l[j']? = some y → y = 0) → l.sum = x
  | [], j, x, h, _ => by simp at h
  | a :: l, 0, x, h, h0 => by
    simp only [List.getElem?_cons_zero, Option.some.injEq] at h
    subst h
    have : l.sum = 0 := List.sum_eq_zero (fun y hy => by
      obtain ⟨j, hj⟩ := List.getElem?_of_mem hy
      exact h0 (j + 1) y (by omega) (by simpa using hj))
    simp [this]
  | a :: l, j + 1, x, h, h0 => by
    have ha : a = 0 := h0 0 a (by omega) (by simp)
    have := sum_single l j x (by simpa using h) (fun j' y hj hy => h0 (j' + 1) y (by omega) (by simpa using hy))
    simp [ha, this]

theorem countTrue_lt_two {ms : List (List Bool)} {i : ℕ} (h : countTrue ms i < 2) {j j' : ℕ} {m m' : List Bool}
    (hj : ms[j]? = some m) (hj' : ms[j']? = some m') (hm : m.getD i false = true) (hm' : m'.getD i false = true) :
    j = j' := by
  induction ms generalizing j j' with
  | nil => simp at hj
  | cons a ms ih =>
    simp only [countTrue, List.countP_cons] at h
    have pos : ∀ (j : ℕ) (m : List Bool), ms[j]? = some m → m.getD i false = true →
        0 < ms.countP (fun m => m.getD i false) := by
      intro j m hj hm
      exact List.countP_pos_iff.2 ⟨m, List.mem_of_getElem? hj, hm⟩
    cases j with
    | zero =>
      cases j' with
      | zero => rfl
      | succ j' =>
        exfalso
        simp only [List.getElem?_cons_zero, Option.some.injEq] at hj
        simp only [List.getElem?_cons_succ] at hj'
        subst hj
        have := pos j' m' hj' hm'
        rw [if_pos hm] at h
        omega
    | succ j =>
      cases j' with
      | zero =>
        exfalso
        simp only [List.getElem?_cons_zero, Option.some.injEq] at hj'
        simp only [List.getElem?_cons_succ] at hj
        subst hj'
        have := pos j m hj hm
        rw [if_pos hm'] at h
        omega
      | succ j' =>
        simp only [List.getElem?_cons_succ] at hj hj'
        rw [ih (by simp only [countTrue]; omega) hj hj']

theorem countTrue_ge_two {ms : List (List Bool)} {i : ℕ} {j j' : ℕ} {m m' : List Bool} (hne : j ≠ j')
    (hj : ms[j]? = some m) (hj' : ms[j']? = some m') (hm : m.getD i false = true) (hm' : m'.getD i false = true) :
    2 ≤ countTrue ms i := by
  by_contra h
  exact hne (countTrue_lt_two (by omega) hj hj' hm hm')

theorem countTrue_pos {ms : List (List Bool)} {i : ℕ} : 0 < countTrue ms i ↔
    ∃ (j : ℕ) (m : List Bool), ms[j]? = some m ∧ m.getD i false = true := by
  simp only [countTrue, List.countP_pos_iff]
  constructor
  · rintro ⟨m, hm, h⟩
    obtain ⟨j, hj⟩ := List.getElem?_of_mem hm
    exact ⟨j, m, hj, h⟩
  · rintro ⟨j, m, hj, h⟩
    exact ⟨m, List.mem_of_getElem? hj, h⟩

theorem countTrue_le_one {ms : List (List Bool)} {i : ℕ} (h : ∀ (j j' : ℕ) (m m' : List Bool), ms[j]? = some m →
    ms[j']? = some m' → m.getD i false = true → m'.getD i false = true → j = j') : countTrue ms i < 2 := by
  induction ms with
  | nil => simp [countTrue]
  | cons a ms ih =>
    have h1 := ih (fun j j' m m' hj hj' hm hm' => by
      have := h (j + 1) (j' + 1) m m' (by simpa using hj) (by simpa using hj') hm hm'; omega)
    simp only [countTrue, List.countP_cons] at h1 ⊢
    by_cases ha : a.getD i false = true
    · rw [if_pos ha]
      have : ms.countP (fun m => m.getD i false) = 0 := by
        rw [List.countP_eq_zero]
        intro m hm hmi
        obtain ⟨j, hj⟩ := List.getElem?_of_mem hm
        have := h 0 (j + 1) a m rfl (by simpa using hj) ha hmi
        omega
      omega
    · rw [if_neg ha]
      omega

end GEM.Refs
