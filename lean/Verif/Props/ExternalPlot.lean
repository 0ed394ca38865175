import Verif.Model.ExternalPlot
import Mathlib.Tactic.Ring
import Mathlib.Tactic.Linarith
import Mathlib.Algebra.Order.Ring.Rat
import Mathlib.Data.Nat.ModEq
import Mathlib.Data.List.Nodup
import Mathlib.Data.List.Induction

/-!
# C150: external plots show the data passed to them
-/

set_option linter.unusedSectionVars false

namespace GEM.Props

open GEM.ExternalPlot

variable {K : Type} [Field K] [LinearOrder K] [IsStrictOrderedRing K]

/-! ## Statement -/

/-- The loop of the docstring: the data of round `m` are passed, then a step is taken. -/
def afterData (c : ExternalPlot.Cfg K) (rs : List (List K)) : ExternalPlot.Plot K :=
  rs.foldl (fun p d => (p.addData c d).1.stepEnd c) (ExternalPlot.Plot.new c)

/-- Point of a line after a rendering. -/
def PointOn (c : ExternalPlot.Cfg K) (p : ExternalPlot.Plot K) (j : ℕ) (x y : K) : Prop :=
  ∃ a, p.onLine c j = some a ∧ ∃ i < c.w, p.x i = x ∧ a i = some y

/-- Value `j` of round `m` is `y`. -/
def PassedData (rs : List (List K)) (m j : ℕ) (y : K) : Prop := ∃ d, rs[m]? = some d ∧ d[j]? = some y

/-! ## Containers -/

theorem write_data (idx : ℕ) : ∀ (ts : List ℕ) (vs : List K) (d : ℕ → ℕ → Option K), ts.Nodup → ts.length ≤ vs.length →
    (write idx ts vs d).2 = .ok () ∧ (∀ (j t : ℕ), ts[j]? = some t → (write idx ts vs d).1 t = Function.update (d t) idx vs[j]?) ∧
      ∀ t, t ∉ ts → (write idx ts vs d).1 t = d t := by
  intro ts
  induction ts with
  | nil => intro vs d _ _; exact ⟨rfl, fun j t h => by simp at h, fun _ _ => rfl⟩
  | cons t ts ih =>
    intro vs d hn hl
    cases vs with
    | nil => simp at hl
    | cons v vs =>
      obtain ⟨hn1, hn2⟩ := List.nodup_cons.1 hn
      obtain ⟨i1, i2, i3⟩ := ih vs (Function.update d t (Function.update (d t) idx (some v))) hn2 (by simpa using hl)
      refine ⟨i1, ?_, ?_⟩
      · intro j s hj
        cases j with
        | zero =>
          obtain rfl : t = s := by simpa using hj
          simp only [write]
          rw [i3 t hn1, Function.update_self]
          rfl
        | succ j =>
          have hj' : ts[j]? = some s := by simpa using hj
          have hs : s ≠ t := fun e => hn1 (e ▸ List.mem_of_getElem? hj')
          simp only [write]
          rw [i2 j s hj', Function.update_of_ne hs]
          simp
      · intro s hs
        simp only [List.mem_cons, not_or] at hs
        simp only [write]
        rw [i3 s hs.2, Function.update_of_ne hs.1]

theorem targets_nodup (c : ExternalPlot.Cfg K) : c.targets.Nodup := by
  have h : ((List.range c.added).map (· + 2)).Nodup := List.Nodup.map (fun a b e => by simpa using e) List.nodup_range
  unfold Cfg.targets
  split <;> simp [h]

theorem targets_length (c : ExternalPlot.Cfg K) : c.targets.length = c.lines := by
  unfold Cfg.targets Cfg.lines
  split <;> simp <;> omega

theorem mod_apart {a b w : ℕ} (h1 : a < b) (h2 : b < a + w) : a % w ≠ b % w := by
  intro e
  have := (Nat.modEq_iff_dvd' h1.le).1 e
  have := Nat.le_of_dvd (by omega) this
  omega

/-- State of times and of one container that gets value `j` of every round. -/
structure RingData (c : ExternalPlot.Cfg K) (rs : List (List K)) (p : ExternalPlot.Plot K) : Prop where
  k : p.k = rs.length
  t : p.t = rs.length * c.tau
  x1 : ∀ m ≤ rs.length, rs.length < m + c.w → p.x (m % c.w) = m * c.tau
  x2 : ∀ i, rs.length < i → i < c.w → p.x i = i * c.tau
  y1 : ∀ (j s : ℕ), c.targets[j]? = some s → ∀ m, m < rs.length → rs.length ≤ m + c.w → p.y s (m % c.w) = (rs[m]?.getD [])[j]?
  y2 : ∀ s i, rs.length ≤ i → i < c.w → p.y s i = none
  y3 : ∀ s, s ∉ c.targets → ∀ i, p.y s i = none

theorem ring_after (c : ExternalPlot.Cfg K) (rs : List (List K)) (hr : ∀ d ∈ rs, c.lines ≤ d.length) : RingData c rs (afterData c rs) := by
  induction rs using List.reverseRecOn with
  | nil =>
    refine ⟨rfl, by simp [afterData, Plot.new], ?_, ?_, ?_, fun _ _ _ _ => rfl, fun _ _ _ => rfl⟩
    · intro m hm _
      obtain rfl : m = 0 := by simpa using hm
      simp [afterData, Plot.new]
    · intro i _ _; rfl
    · intro j s _ m hm; simp at hm
  | append_singleton rs d ih =>
    have h := ih fun d' hd' => hr d' (List.mem_append_left _ hd')
    have hd := hr d (by simp)
    have hstep : afterData c (rs ++ [d]) = ((afterData c rs).addData c d).1.stepEnd c := by simp [afterData, List.foldl_append]
    obtain ⟨-, w2, w3⟩ := write_data ((afterData c rs).k % c.w) c.targets d (afterData c rs).y (targets_nodup c) (by rw [targets_length]; exact hd)
    rw [h.k] at w2 w3
    rw [hstep]
    simp only [Plot.addData, Plot.stepEnd]
    rw [h.k, h.t]
    have hmod : ∀ i, rs.length < i → i < c.w → i ≠ rs.length % c.w := fun i h1 h2 => by rw [Nat.mod_eq_of_lt (by omega)]; omega
    refine ⟨by simp, by simp; ring, ?_, ?_, ?_, ?_, ?_⟩
    · intro m hm hm2
      simp only [List.length_append, List.length_singleton] at hm hm2
      rcases Nat.lt_or_ge m (rs.length + 1) with hlt | hge
      · simp only
        rw [Function.update_of_ne (mod_apart hlt (by omega))]
        exact h.x1 m (by omega) (by omega)
      · obtain rfl : m = rs.length + 1 := by omega
        simp only [Function.update_self]
        push_cast
        ring
    · intro i hi hi2
      simp only [List.length_append, List.length_singleton] at hi
      simp only
      rw [Function.update_of_ne (by rw [Nat.mod_eq_of_lt (by omega)]; omega)]
      exact h.x2 i (by omega) hi2
    · intro j s hs m hm hm2
      simp only [List.length_append, List.length_singleton] at hm hm2
      simp only
      rw [w2 j s hs]
      rcases Nat.lt_or_ge m rs.length with hlt | hge
      · rw [Function.update_of_ne (mod_apart hlt (by omega)), h.y1 j s hs m hlt (by omega), List.getElem?_append_left hlt]
      · obtain rfl : m = rs.length := by omega
        simp
    · intro s i hi hi2
      simp only [List.length_append, List.length_singleton] at hi
      simp only
      by_cases hs : s ∈ c.targets
      · obtain ⟨j, hj⟩ := List.mem_iff_getElem?.1 hs
        rw [w2 j s hj, Function.update_of_ne (hmod i (by omega) hi2)]
        exact h.y2 s i (by omega) hi2
      · rw [w3 s hs]
        exact h.y2 s i (by omega) hi2
    · intro s hs i
      simp only
      rw [w3 s hs]
      exact h.y3 s hs i

theorem container_points {c : ExternalPlot.Cfg K} (hw : 0 < c.w) {rs : List (List K)} {p : ExternalPlot.Plot K} (h : RingData c rs p) {j s : ℕ}
    (hs : c.targets[j]? = some s) (x y : K) :
    (∃ i < c.w, p.x i = x ∧ p.y s i = some y) ↔
      (∃ m < rs.length, rs.length < m + c.w ∧ x = m * c.tau ∧ PassedData rs m j y) ∨ (c.w ≤ rs.length ∧ x = rs.length * c.tau ∧ PassedData rs (rs.length - c.w) j y) := by
  have hp : ∀ m, m < rs.length → ((rs[m]?.getD [])[j]? = some y ↔ PassedData rs m j y) := fun m hm => by
    simp [PassedData, List.getElem?_eq_getElem hm]
  constructor
  · rintro ⟨i, hi, rfl, hy⟩
    have hin : i < rs.length := by
      by_contra hc
      rw [h.y2 s i (by omega) hi] at hy
      cases hy
    have hr1 : (rs.length - i) % c.w < c.w := Nat.mod_lt _ hw
    have hr2 : (rs.length - i) % c.w ≤ rs.length - i := Nat.mod_le _ _
    obtain ⟨m, hm⟩ : ∃ m, m = rs.length - (rs.length - i) % c.w := ⟨_, rfl⟩
    have hmi : m % c.w = i := by
      have e := Nat.div_add_mod (rs.length - i) c.w
      have : m = i + c.w * ((rs.length - i) / c.w) := by omega
      rw [this, Nat.add_mul_mod_self_left, Nat.mod_eq_of_lt hi]
    have hx := h.x1 m (by omega) (by omega)
    rw [hmi] at hx
    rcases Nat.lt_or_ge m rs.length with hlt | hge
    · refine .inl ⟨m, hlt, by omega, hx, (hp m hlt).1 ?_⟩
      rw [← h.y1 j s hs m hlt (by omega), hmi, hy]
    · have hmn : m = rs.length := by omega
      have hwn : c.w ≤ rs.length := by
        by_contra hc
        rw [hmn, Nat.mod_eq_of_lt (by omega)] at hmi
        omega
      refine .inr ⟨hwn, by rw [hx, hmn], (hp _ (by omega)).1 ?_⟩
      rw [← h.y1 j s hs _ (by omega) (by omega), ← Nat.mod_eq_sub_mod hwn, ← hmn, hmi, hy]
  · rintro (⟨m, hm, hmw, rfl, hy⟩ | ⟨hwn, rfl, hy⟩)
    · exact ⟨m % c.w, Nat.mod_lt _ hw, h.x1 m hm.le hmw, by rw [h.y1 j s hs m hm (by omega)]; exact (hp m hm).2 hy⟩
    · refine ⟨rs.length % c.w, Nat.mod_lt _ hw, h.x1 _ le_rfl (by omega), ?_⟩
      rw [Nat.mod_eq_sub_mod hwn, h.y1 j s hs _ (by omega) (by omega)]
      exact (hp _ (by omega)).2 hy

theorem target_ref {c : ExternalPlot.Cfg K} (h : c.referenced = true) {j : ℕ} (hj : j < c.lines) : c.targets[j]? = some j := by
  simp only [Cfg.lines, h, if_true] at hj
  rcases j with _ | _ | j
  · simp [Cfg.targets, h]
  · simp [Cfg.targets, h]
  · have : j < c.added := by omega
    simp [Cfg.targets, h, this]

theorem target_plain {c : ExternalPlot.Cfg K} (h : c.referenced = false) {j : ℕ} (hj : j < c.added) : c.targets[j + 1]? = some (j + 2) := by
  simp [Cfg.targets, h, hj]

/-! ## Theorems -/

/-- A referenced plot: line `j` shows value `j` of each of the last rounds at the time of this round, as many as the plot is wide less one; and at the newest
time nothing in the first rounds. -/
theorem c150_lines_partial (c : ExternalPlot.Cfg K) (hw : 0 < c.w) (ht : 0 < c.tau) (hc : c.referenced = true) (rs : List (List K))
    (hr : ∀ d ∈ rs, c.lines ≤ d.length) (j : ℕ) (hj : j < c.lines) (m : ℕ) (hm : rs.length < m + c.w) (hm2 : m ≠ rs.length) (y : K) :
    PointOn c (afterData c rs) j (m * c.tau) y ↔ PassedData rs m j y := by
  have hl : (afterData c rs).onLine c j = some ((afterData c rs).y j) := by
    have : j < 2 + c.added := by simp only [Cfg.lines, hc, if_true] at hj; omega
    simp [Plot.onLine, hj, this]
  have hinj : ∀ a b : ℕ, (a : K) * c.tau = b * c.tau → a = b := fun a b e => by exact_mod_cast mul_right_cancel₀ ht.ne' e
  have key := container_points hw (ring_after c rs hr) (target_ref hc hj) (m * c.tau) y
  constructor
  · rintro ⟨a, ha, hi⟩
    obtain rfl : (afterData c rs).y j = a := Option.some.inj (hl ▸ ha)
    rcases key.1 hi with ⟨m', h1, h2, e, h3⟩ | ⟨h1, e, h3⟩
    · rwa [hinj _ _ e]
    · exact absurd (hinj _ _ e) hm2
  · intro h
    have hlt : m < rs.length := by
      obtain ⟨d, hd, -⟩ := h
      exact (List.getElem?_eq_some_iff.1 hd).1
    exact ⟨_, hl, key.2 (.inl ⟨m, hlt, hm, rfl, h⟩)⟩

/-- Violated at the newest time, as soon as the plot is full: the data passed one plot width earlier stand there. -/
theorem c150_newest_violated (c : ExternalPlot.Cfg K) (hw : 0 < c.w) (ht : 0 < c.tau) (hc : c.referenced = true) (rs : List (List K))
    (hr : ∀ d ∈ rs, c.lines ≤ d.length) (j : ℕ) (hj : j < c.lines) (hfull : c.w ≤ rs.length) (y : K) :
    PointOn c (afterData c rs) j (rs.length * c.tau) y ↔ PassedData rs (rs.length - c.w) j y := by
  have hl : (afterData c rs).onLine c j = some ((afterData c rs).y j) := by
    have : j < 2 + c.added := by simp only [Cfg.lines, hc, if_true] at hj; omega
    simp [Plot.onLine, hj, this]
  have hinj : ∀ a b : ℕ, (a : K) * c.tau = b * c.tau → a = b := fun a b e => by exact_mod_cast mul_right_cancel₀ ht.ne' e
  have key := container_points hw (ring_after c rs hr) (target_ref hc hj) (rs.length * c.tau) y
  constructor
  · rintro ⟨a, ha, hi⟩
    obtain rfl : (afterData c rs).y j = a := Option.some.inj (hl ▸ ha)
    rcases key.1 hi with ⟨m', h1, h2, e, h3⟩ | ⟨h1, e, h3⟩
    · exact absurd (hinj _ _ e) (by omega)
    · exact h3
  · exact fun h => ⟨_, hl, key.2 (.inr ⟨hfull, rfl, h⟩)⟩

/-- Violated without a reference: the first additional line never shows a point, each further one shows the data of the line before it, so the data of the last
are not shown at all. -/
theorem c150_shifted_violated (c : ExternalPlot.Cfg K) (hw : 0 < c.w) (ht : 0 < c.tau) (hc : c.referenced = false) (rs : List (List K))
    (hr : ∀ d ∈ rs, c.lines ≤ d.length) :
    (∀ x y, ¬ PointOn c (afterData c rs) 1 x y) ∧
    ∀ j, j + 1 < c.added → ∀ m < rs.length, rs.length < m + c.w → ∀ y, PointOn c (afterData c rs) (j + 2) (m * c.tau) y ↔ PassedData rs m (j + 1) y := by
  have hring := ring_after c rs hr
  constructor
  · rintro x y ⟨a, ha, i, -, -, hy⟩
    unfold Plot.onLine at ha
    split at ha
    · obtain rfl : (afterData c rs).y 1 = a := Option.some.inj ha
      rw [hring.y3 1 (by simp [Cfg.targets, hc])] at hy
      cases hy
    · cases ha
  · intro j hj m hm hmw y
    have hl : (afterData c rs).onLine c (j + 2) = some ((afterData c rs).y (j + 2)) := by
      have h1 : j + 2 < c.lines := by simp [Cfg.lines, hc]; omega
      have h2 : j + 2 < 2 + c.added := by omega
      simp only [Plot.onLine, h1, h2, and_self, if_true]
    have hinj : ∀ a b : ℕ, (a : K) * c.tau = b * c.tau → a = b := fun a b e => by exact_mod_cast mul_right_cancel₀ ht.ne' e
    have key := container_points hw hring (target_plain hc (show j < c.added by omega)) (m * c.tau) y
    constructor
    · rintro ⟨a, ha, hi⟩
      obtain rfl : (afterData c rs).y (j + 2) = a := Option.some.inj (hl ▸ ha)
      rcases key.1 hi with ⟨m', h1, h2, e, h3⟩ | ⟨h1, e, h3⟩
      · rwa [hinj _ _ e]
      · exact absurd (hinj _ _ e) (by omega)
    · exact fun h => ⟨_, hl, key.2 (.inl ⟨m, hm, hmw, rfl, h⟩)⟩

/-- `add_data` succeeds exactly if there is a value for every line; more values are ignored. -/
theorem c150_total (c : ExternalPlot.Cfg K) (p : ExternalPlot.Plot K) (d : List K) :
    (c.lines ≤ d.length → (p.addData c d).2 = .ok ()) ∧ (d.length < c.lines → (p.addData c d).2 = .error .index) := by
  rw [← targets_length]
  refine ⟨fun h => (write_data _ _ _ _ (targets_nodup c) h).1, fun h => ?_⟩
  simp only [Plot.addData]
  generalize c.targets = ts at h
  generalize p.y = z
  generalize p.k % c.w = idx
  induction ts generalizing d z with
  | nil => simp at h
  | cons t ts ih =>
    cases d with
    | nil => rfl
    | cons v d => exact ih d (by simpa using h) _

/-- References of a cascaded controller: `plot` hands the value of a state to the first plot of this state and to no other. -/
theorem c150_refs (names plots : List String) (hn : names.Nodup) (hp : ∀ s ∈ plots, s ∈ names) (refStates : List ℕ) (hs : ∀ s ∈ refStates, s < names.length)
    (values : List K) : ∃ calls, passRefs names plots refStates values = .ok calls ∧ ∀ (i : ℕ) (v : K), (i, v) ∈ calls ↔
      ∃ (q s : ℕ) (name : String), refStates[q]? = some s ∧ values[q]? = some v ∧ names[s]? = some name ∧ plots[i]? = some name ∧ ∀ i' < i, plots[i']? ≠ some name := by
  by_cases h0 : plots.length = 0
  · refine ⟨[], by simp [passRefs, h0], fun i v => ?_⟩
    obtain rfl := List.length_eq_zero_iff.1 h0
    simp
  · refine ⟨_, by rw [passRefs, if_neg h0, if_pos hp], fun i v => ?_⟩
    have hidx : ∀ (s : ℕ) (name : String), names[s]? = some name → ∀ i' : ℕ, (plots.map names.idxOf)[i']? = some s ↔ plots[i']? = some name := by
      intro s name hname i'
      obtain ⟨hlt, e⟩ := List.getElem?_eq_some_iff.1 hname
      rw [List.getElem?_map, Option.map_eq_some_iff]
      constructor
      · rintro ⟨a, ha, hb⟩
        have ham : a ∈ names := hp a (List.mem_of_getElem? ha)
        have : names[names.idxOf a]? = some a := by
          rw [List.getElem?_eq_getElem (List.idxOf_lt_length_of_mem ham), List.getElem_idxOf]
        rw [hb, hname] at this
        rw [ha, this]
      · intro ha
        exact ⟨name, ha, by rw [← e]; exact hn.idxOf_getElem s hlt⟩
    simp only [List.mem_filterMap, Option.map_eq_some_iff, Prod.mk.injEq]
    constructor
    · rintro ⟨⟨s, v'⟩, hq, i', hi', rfl, rfl⟩
      obtain ⟨q, hq⟩ := List.mem_iff_getElem?.1 hq
      obtain ⟨hq1, hq2⟩ := List.getElem?_zip_eq_some.1 hq
      have hslt := hs s (List.mem_of_getElem? hq1)
      have hname : names[s]? = some names[s] := List.getElem?_eq_getElem hslt
      obtain ⟨hlt, g1, g2⟩ := List.idxOf?_eq_some_iff.1 hi'
      refine ⟨q, s, names[s], hq1, hq2, hname, ?_, ?_⟩
      · exact (hidx s _ hname i').1 (by rw [List.getElem?_eq_getElem hlt, g1])
      · intro i'' hi'' hc
        have := (hidx s _ hname i'').2 hc
        rw [List.getElem?_eq_getElem (by omega)] at this
        exact g2 i'' hi'' (Option.some.inj this)
    · rintro ⟨q, s, name, hq1, hq2, hname, hi, hfirst⟩
      refine ⟨(s, v), List.mem_of_getElem? (List.getElem?_zip_eq_some.2 ⟨hq1, hq2⟩), i, ?_, rfl, rfl⟩
      have hsome := (hidx s _ hname i).2 hi
      obtain ⟨hlt, g1⟩ := List.getElem?_eq_some_iff.1 hsome
      refine List.idxOf?_eq_some_iff.2 ⟨hlt, g1, fun i' hi' hc => hfirst i' hi' ?_⟩
      exact (hidx s _ hname i').1 (by rw [List.getElem?_eq_getElem (by omega), hc])

/-- Violated for a second plot of the same state: it never gets a reference. -/
theorem c150_second_violated (names plots : List String) (hn : names.Nodup) (hp : ∀ s ∈ plots, s ∈ names) (refStates : List ℕ)
    (hs : ∀ s ∈ refStates, s < names.length) (values : List K) (i i' : ℕ) (hi : i' < i) (hsame : plots[i']? = plots[i]?) :
    ∃ calls, passRefs names plots refStates values = .ok calls ∧ ∀ v, (i, v) ∉ calls := by
  obtain ⟨calls, h1, h2⟩ := c150_refs names plots hn hp refStates hs values
  refine ⟨calls, h1, fun v hv => ?_⟩
  obtain ⟨q, s, name, -, -, -, h3, h4⟩ := (h2 i v).1 hv
  exact h4 i' hi (hsame.trans h3)

/-- Violated by the controllers with one stage: as soon as they have a plot for references, as in the examples for direct current motors, every call of
`control` raises a `TypeError`, since they pass no data. -/
theorem c150_action_violated (caller : Caller) (h : caller = .continuousAction ∨ caller = .discreteAction) (names plots : List String) (hp : plots ≠ [])
    (nExternal : ℕ) (visualization rendering : Bool) (data : ExternalPlot.Data K) :
    caller.plots names plots nExternal visualization rendering data = .error .type := by
  rcases h with rfl | rfl <;> simp [Caller.plots, ExternalPlot.plot, hp, bind, Except.bind]

theorem plot_data (names pl : List String) (hpl : ∀ s ∈ pl, s ∈ names) (n : ℕ) (data : ExternalPlot.Data K) : ∃ refs exts,
    ExternalPlot.plot names pl n true (some data) = .ok (refs, exts) ∧ passRefs names pl data.refState data.refValue = .ok refs ∧
    ∀ (i : ℕ) (d : List K), (i, d) ∈ exts ↔ i < n ∧ data.external[i]? = some d := by
  obtain ⟨refs, hr⟩ : ∃ refs, passRefs names pl data.refState data.refValue = .ok refs := by
    by_cases h0 : pl.length = 0
    · exact ⟨[], by simp [passRefs, h0]⟩
    · exact ⟨_, by rw [passRefs, if_neg h0, if_pos hpl]⟩
  have h0 : pl.length = 0 → refs = [] := fun h0 => by simpa [passRefs, h0] using hr.symm
  refine ⟨refs, (List.range n).zip data.external, ?_, hr, ?_⟩
  · by_cases hn : n = 0 <;> by_cases hl : pl.length = 0
    · simp [ExternalPlot.plot, hn, hl, h0 hl, bind, Except.bind, pure, Except.pure]
    · simp [ExternalPlot.plot, hn, hl, hr, bind, Except.bind, pure, Except.pure]
    · simp [ExternalPlot.plot, hn, hl, h0 hl, bind, Except.bind, pure, Except.pure]
    · simp [ExternalPlot.plot, hn, hl, hr, bind, Except.bind, pure, Except.pure]
  · intro i d
    constructor
    · intro hid
      obtain ⟨q, hq⟩ := List.mem_iff_getElem?.1 hid
      obtain ⟨h1, h2⟩ := List.getElem?_zip_eq_some.1 hq
      obtain ⟨hlt, e⟩ := List.getElem?_eq_some_iff.1 h1
      rw [List.getElem_range] at e
      subst e
      exact ⟨by simpa using hlt, h2⟩
    · rintro ⟨h1, h2⟩
      exact List.mem_of_getElem? (List.getElem?_zip_eq_some.2 ⟨by simp [h1], h2⟩)

/-- All other controllers plot without an exception: cascaded ones hand over their references (the one for direct current motors if there is something to
render), those for induction motors the data of the flux, each to the external plot at its position. -/
theorem c150_action_partial (caller : Caller) (names plots : List String) (hp : ∀ s ∈ plots, s ∈ names) (h1 : caller ≠ .continuousAction)
    (h2 : caller ≠ .discreteAction) (nExternal : ℕ) (visualization rendering : Bool) (data : ExternalPlot.Data K) :
    ∃ refs exts, caller.plots names plots nExternal visualization rendering data = .ok (refs, exts) ∧
      ((caller = .foc ∨ caller = .cascadedFoc ∨ caller = .inductionCascadedFoc ∨ caller = .cascaded ∧ visualization = true ∧ rendering = true) →
        passRefs names plots data.refState data.refValue = .ok refs) ∧
      ∀ (i : ℕ) (d : List K), (i, d) ∈ exts ↔ (caller = .inductionFoc ∨ caller = .inductionCascadedFoc) ∧ i < nExternal ∧ data.external[i]? = some d := by
  cases caller with
  | continuousAction => exact absurd rfl h1
  | discreteAction => exact absurd rfl h2
  | cascaded =>
    cases rendering with
    | false => exact ⟨[], [], rfl, by simp, by simp⟩
    | true =>
      cases visualization with
      | false => exact ⟨[], [], rfl, by simp, by simp⟩
      | true =>
        obtain ⟨r, e, k1, k2, k3⟩ := plot_data names plots hp 0 data
        exact ⟨r, e, k1, fun _ => k2, fun i d => by simp [k3]⟩
  | foc =>
    obtain ⟨r, e, k1, k2, k3⟩ := plot_data names plots hp 0 data
    exact ⟨r, e, k1, fun _ => k2, fun i d => by simp [k3]⟩
  | cascadedFoc =>
    obtain ⟨r, e, k1, k2, k3⟩ := plot_data names plots hp 0 data
    exact ⟨r, e, k1, fun _ => k2, fun i d => by simp [k3]⟩
  | inductionFoc =>
    obtain ⟨r, e, k1, k2, k3⟩ := plot_data [] [] (by simp) nExternal data
    exact ⟨r, e, k1, by simp, fun i d => by simp [k3]⟩
  | inductionCascadedFoc =>
    obtain ⟨r, e, k1, k2, k3⟩ := plot_data names plots hp nExternal data
    exact ⟨r, e, k1, fun _ => k2, fun i d => by simp [k3]⟩

/-- Plots of the speed and twice of the current, references for the current: the first plot of the current gets it. -/
example : passRefs (K := ℚ) ["omega", "torque", "i"] ["omega", "i", "i"] [2] [7] = .ok [(1, 7)] := by decide

/-- `classic_controllers_dc_motor_example.py` with `ControlType.CurrentControl`, whose plots are those of the states of the motor: no action is returned. -/
example (data : ExternalPlot.Data ℚ) :
    Caller.continuousAction.plots ["omega", "torque", "i", "u", "u_sup"] ["omega", "torque", "i", "u"] 0 true true data = .error .type :=
  c150_action_violated _ (.inl rfl) _ _ (by simp) _ _ _ _

/-- A cascaded controller of an induction motor with the two plots of the flux and one of `i_sq`. -/
example : Caller.inductionCascadedFoc.plots (K := ℚ) ["omega", "i_sd", "i_sq"] ["i_sq"] 2 true true ⟨[2, 1], [3, 4], [[5, 6], [7]]⟩ =
    .ok ([(0, 3)], [(0, [5, 6]), (1, [7])]) := by decide

/-- A plot of width 3 after four rounds: the value of round 1 stands at the newest time 4. -/
example : PointOn (⟨true, 0, 3, 1⟩ : ExternalPlot.Cfg ℚ) (afterData ⟨true, 0, 3, 1⟩ [[1, 5], [2, 6], [3, 7], [4, 8]]) 0 4 2 := by
  have := (c150_newest_violated (⟨true, 0, 3, 1⟩ : ExternalPlot.Cfg ℚ) (by norm_num) (by norm_num) rfl [[1, 5], [2, 6], [3, 7], [4, 8]]
    (by simp [Cfg.lines]) 0 (by simp [Cfg.lines]) (by simp) 2).2 ⟨[2, 6], rfl, rfl⟩
  simpa using this

/-- Two additional lines without reference: the second one shows the values of the first. -/
example : PointOn (⟨false, 2, 9, 1⟩ : ExternalPlot.Cfg ℚ) (afterData ⟨false, 2, 9, 1⟩ [[1, 5, 7], [2, 6, 8]]) 2 1 6 := by
  have := ((c150_shifted_violated (⟨false, 2, 9, 1⟩ : ExternalPlot.Cfg ℚ) (by norm_num) (by norm_num) rfl [[1, 5, 7], [2, 6, 8]]
    (by simp [Cfg.lines])).2 0 (by simp) 1 (by simp) (by simp) 6).2 ⟨[2, 6, 8], rfl, rfl⟩
  simpa using this

end GEM.Props
