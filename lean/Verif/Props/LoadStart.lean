import Verif.Model.LoadStart
import Verif.Props.Sharing
import Verif.Props.Init

/-!
# C149: initial speeds

What `reset` of a `ConstantSpeedLoad` or `PolynomialStaticLoad` with random initial speeds returns, in every program that creates and resets such loads.
-/

set_option linter.unusedSectionVars false

namespace GEM.Props

open GEM.Utils GEM.Init GEM.Sharing

variable {K : Type} [Field K] [LinearOrder K] [IsStrictOrderedRing K]

/-! ## Statement -/

/-- Programs in which the user's dictionaries of initial states have the entry `"omega"` only (these loads have no other state). -/
def SpeedOnly (es : List (Event K)) : Prop := ∀ d, Event.dict d ∈ es → ∃ x, d = [("omega", x)]

/-- Load `i` after this program: created, with a dictionary that exists, and with this random part of its initializer. -/
def HasLoad (es : List (Event K)) (i : ℕ) (o : LoadObj K) : Prop :=
  (run World.initial es).loads[i]? = some o ∧ o.states < (run World.initial es).heap.length

/-- What the next reset of load `i` returns after this program, in a system where the speed has position `j`. -/
def startSpeed (es : List (Event K)) (i : ℕ) (o : LoadObj K) (nominal low : List K) (positions : List (String × ℕ)) (rvs : Rvs K) (pool : ℕ)
    (draws : List K) : Except Err (List K) :=
  (exec (run World.initial es) (.reset i (loadBounds nominal low positions o.cfg.interval) rvs pool draws)).2

/-! ## Dictionaries -/

theorem write_speed (x : K) (vals : List K) : ∃ y, writeBack [("omega", x)] vals = [("omega", y)] := by
  cases vals with
  | nil => exact ⟨x, rfl⟩
  | cons v vals => exact ⟨v, by simp [writeBack, dictUpdate, dictSet]⟩

theorem exec_speed {w : World K} (h : ∀ d ∈ w.heap, ∃ x, d = [("omega", x)]) {e : Event K} (he : ∀ d, e = .dict d → ∃ x, d = [("omega", x)]) :
    ∀ d ∈ (exec w e).1.heap, ∃ x, d = [("omega", x)] := by
  have hset : ∀ (r : ℕ) (y : K), ∀ d ∈ w.heap.set r [("omega", y)], ∃ x, d = [("omega", x)] := fun r y d hd => by
    rcases List.mem_or_eq_of_mem_set hd with hd | rfl
    · exact h d hd
    · exact ⟨y, rfl⟩
  cases e with
  | dict d =>
    intro d' hd'
    rcases List.mem_append.1 hd' with hd' | hd'
    · exact h d' hd'
    · rw [List.mem_singleton.1 hd']
      exact he d rfl
  | newConst om init =>
    simp only [exec, newConst]
    split
    · exact h
    · rename_i d hd
      obtain ⟨x, rfl⟩ := h d (List.mem_of_getElem? hd)
      split
      · exact h
      · by_cases e0 : om = 0
        · simpa [e0] using h
        · simp only [ne_eq, e0, not_false_eq_true, if_true]
          have : dictSet [("omega", x)] "omega" om = [("omega", om)] := by simp [dictSet]
          rw [this]
          exact hset _ _
  | newPoly init => exact h
  | reset i bounds rvs pool draws =>
    simp only [exec, resetLoad]
    split
    · exact h
    · split
      · exact h
      · rename_i d hd
        obtain ⟨x, rfl⟩ := h d (List.mem_of_getElem? hd)
        split
        · exact h
        · split
          · exact h
          · rename_i vals _
            obtain ⟨y, hy⟩ := write_speed x vals
            simp only [hy]
            exact hset _ _

theorem run_speed {es : List (Event K)} (h : SpeedOnly es) : ∀ d ∈ (run (World.initial : World K) es).heap, ∃ x, d = [("omega", x)] := by
  have key : ∀ (es : List (Event K)) (w : World K), (∀ d, Event.dict d ∈ es → ∃ x, d = [("omega", x)]) → (∀ d ∈ w.heap, ∃ x, d = [("omega", x)]) →
      ∀ d ∈ (run w es).heap, ∃ x, d = [("omega", x)] := by
    intro es
    induction es with
    | nil => intro w _ hw; exact hw
    | cons e es ih =>
      intro w hes hw
      exact ih _ (fun d hd => hes d (List.mem_cons_of_mem _ hd)) (exec_speed hw fun d hd => hes d (by rw [hd]; exact List.mem_cons_self ..))
  refine key es _ h ?_
  intro d hd
  simp only [World.initial, List.mem_cons, List.not_mem_nil, or_false, or_self] at hd
  exact ⟨0, hd⟩

theorem bounds_speed {nominal low : List K} {positions : List (String × ℕ)} {j : ℕ} {n s a b : K} (hj : lookup positions "omega" = some j)
    (hn : nominal[j]? = some n) (hs : low[j]? = some s) :
    loadBounds nominal low positions (some [(a, b)]) ["omega"] = .ok ([max (n * s) a], [min n b]) ∧
    loadBounds nominal low positions none ["omega"] = .ok ([n * s], [n]) := by
  constructor <;>
  simp [loadBounds, hj, hn, hs, bind, Except.bind, pure, Except.pure, bzip, clipBounds]

theorem start_eq {es : List (Event K)} (h : SpeedOnly es) {i : ℕ} {o : LoadObj K} (ho : HasLoad es i o) :
    ∃ x, ∀ (nominal low : List K) (positions : List (String × ℕ)) (rvs : Rvs K) (pool : ℕ) (draws lower upper : List K),
      loadBounds nominal low positions o.cfg.interval ["omega"] = .ok (lower, upper) →
      startSpeed es i o nominal low positions rvs pool draws =
        (drawValues o.cfg rvs pool draws lower upper [("omega", x)]).map fun v => [v.headD x] := by
  obtain ⟨h1, h2⟩ := ho
  obtain ⟨x, hx⟩ := run_speed h _ (List.getElem_mem h2)
  have hh : (run (World.initial : World K) es).heap[o.states]? = some [("omega", x)] := by rw [List.getElem?_eq_getElem h2, hx]
  refine ⟨x, fun nominal low positions rvs pool draws lower upper hb => ?_⟩
  simp only [startSpeed, exec, resetLoad, h1, hh, List.map_cons, List.map_nil, hb]
  cases drawValues o.cfg rvs pool draws lower upper [("omega", x)] with
  | error e => rfl
  | ok vals =>
    cases vals with
    | nil => rfl
    | cons v vals => simp [writeBack, dictUpdate, dictSet, Except.map]

/-! ## Theorems -/

/-- Uniform initial speeds: the draw's point between the two boundaries, which are the nearer ones of interval and nominal range, whatever happened before.
In particular the speed lies in the interval and in the nominal range if these have common points. -/
theorem c149_uniform_partial (es : List (Event K)) (h : SpeedOnly es) (i : ℕ) (o : LoadObj K) (ho : HasLoad es i o) (a b : K)
    (hd : o.cfg.dist = some .uniform) (hi : o.cfg.interval = some [(a, b)]) (nominal low : List K) (positions : List (String × ℕ)) (j : ℕ) (n s : K)
    (hj : lookup positions "omega" = some j) (hn : nominal[j]? = some n) (hs : low[j]? = some s) (rvs : Rvs K) (pool : ℕ) (r : K) (h0 : 0 ≤ r) (h1 : r ≤ 1)
    (hc : max (n * s) a ≤ min n b) :
    ∃ x, startSpeed es i o nominal low positions rvs pool [r] = .ok [x] ∧ x = (1 - r) * max (n * s) a + r * min n b ∧
      a ≤ x ∧ x ≤ b ∧ n * s ≤ x ∧ x ≤ n := by
  obtain ⟨x0, e⟩ := start_eq h ho
  refine ⟨_, ?_, rfl, ?_⟩
  · rw [e nominal low positions rvs pool [r] _ _ (by rw [hi]; exact (bounds_speed hj hn hs).1)]
    simp only [drawValues, hd, bzip, bind, Except.bind, Except.map, List.length_singleton, if_true, List.zipWith_cons_cons, List.zipWith_nil_left,
      List.headD_cons]
    congr 2
    ring
  · have e1 := le_max_left (n * s) a
    have e2 := le_max_right (n * s) a
    have e3 := min_le_left n b
    have e4 := min_le_right n b
    generalize max (n * s) a = lo at hc e1 e2 ⊢
    generalize min n b = hi' at hc e3 e4 ⊢
    have k1 : lo ≤ (1 - r) * lo + r * hi' := by nlinarith
    have k2 : (1 - r) * lo + r * hi' ≤ hi' := by nlinarith
    exact ⟨e2.trans k1, k2.trans e4, e1.trans k1, k2.trans e3⟩

/-- Violated if the interval lies above the nominal speed: the speed is drawn between the two, in neither of them (and no error is raised). -/
theorem c149_uniform_violated (es : List (Event K)) (h : SpeedOnly es) (i : ℕ) (o : LoadObj K) (ho : HasLoad es i o) (a b : K) (hab : a ≤ b)
    (hd : o.cfg.dist = some .uniform) (hi : o.cfg.interval = some [(a, b)]) (nominal low : List K) (positions : List (String × ℕ)) (j : ℕ) (n s : K)
    (hj : lookup positions "omega" = some j) (hn : nominal[j]? = some n) (hs : low[j]? = some s) (hns : n * s ≤ n) (hna : n < a) (rvs : Rvs K) (pool : ℕ)
    (r : K) (h0 : 0 < r) (h1 : r < 1) :
    ∃ x, startSpeed es i o nominal low positions rvs pool [r] = .ok [x] ∧ n < x ∧ x < a := by
  obtain ⟨x0, e⟩ := start_eq h ho
  refine ⟨(n - a) * r + a, ?_, by nlinarith, by nlinarith⟩
  rw [e nominal low positions rvs pool [r] _ _ (by rw [hi]; exact (bounds_speed hj hn hs).1), max_eq_right (hns.trans hna.le),
    min_eq_left (hna.le.trans hab)]
  simp only [drawValues, hd, bzip, bind, Except.bind, Except.map, List.length_singleton, if_true, List.zipWith_cons_cons, List.zipWith_nil_left,
    List.headD_cons]

/-- Gaussian initial speeds with positive deviation, likewise. -/
theorem c149_normal_partial (es : List (Event K)) (h : SpeedOnly es) (i : ℕ) (o : LoadObj K) (ho : HasLoad es i o) (a b : K)
    (hd : o.cfg.dist = some .normal) (hsg : ∀ sg, o.cfg.sigma = some sg → 0 ≤ sg) (hi : o.cfg.interval = some [(a, b)]) (nominal low : List K)
    (positions : List (String × ℕ)) (j : ℕ) (n s : K) (hj : lookup positions "omega" = some j) (hn : nominal[j]? = some n) (hs : low[j]? = some s)
    (rvs : Rvs K) (hrvs : RvsSpec rvs) (pool : ℕ) (draws : List K) (hc : max (n * s) a ≤ min n b) :
    ∃ x, startSpeed es i o nominal low positions rvs pool draws = .ok [x] ∧ a ≤ x ∧ x ≤ b ∧ n * s ≤ x ∧ x ≤ n := by
  obtain ⟨x0, e⟩ := start_eq h ho
  have e1 := le_max_left (n * s) a
  have e2 := le_max_right (n * s) a
  have e3 := min_le_left n b
  have e4 := min_le_right n b
  have eb := (bounds_speed (a := a) (b := b) hj hn hs).1
  generalize max (n * s) a = lo at hc e1 e2 eb
  generalize min n b = up at hc e3 e4 eb
  have hsg' : 0 < orElse o.cfg.sigma 1 := by
    unfold orElse
    cases hq : o.cfg.sigma with
    | none => exact one_pos
    | some v =>
      simp only
      split_ifs with hv
      · exact one_pos
      · exact lt_of_le_of_ne (hsg v hq) (Ne.symm hv)
  obtain ⟨m, hm⟩ : ∃ m, meanOf o.cfg.mu [lo] [up] = [m] := by
    unfold meanOf
    cases o.cfg.mu with
    | none => exact ⟨_, rfl⟩
    | some v =>
      simp only
      split_ifs
      · exact ⟨_, rfl⟩
      · exact ⟨_, rfl⟩
  generalize hq : orElse o.cfg.sigma 1 = sg at hsg'
  obtain ⟨hl, hr⟩ := hrvs [(lo - m) / sg] [(up - m) / sg] [m] sg 1 pool hsg' rfl rfl rfl
  obtain ⟨x, hx⟩ := List.length_eq_one_iff.1 hl
  have k := hr 0 _ _ _ x rfl rfl rfl (by rw [div_le_div_iff_of_pos_right hsg']; linarith) (by rw [hx]; rfl)
  rw [div_mul_cancel₀ _ hsg'.ne', div_mul_cancel₀ _ hsg'.ne'] at k
  refine ⟨x, ?_, by linarith, by linarith, by linarith, by linarith⟩
  rw [e nominal low positions rvs pool draws _ _ (by rw [hi]; exact eb)]
  simp only [drawValues, hd, hm, hq, List.zipWith_cons_cons, List.zipWith_nil_left, List.length_singleton, hx, Except.map, List.headD_cons]

/-- `omega_fixed`, "constant value for omega", is not the speed of a constant speed load with random initial speeds: the attribute keeps the value given to the
constructor, while the load starts (and stays) at the drawn speed; the two differ if the value lies outside the interval. -/
theorem c149_fixed_violated (es : List (Event K)) (h : SpeedOnly es) (om a b : K) (cfg : Cfg K) (hom : om ≠ 0) (hd : cfg.dist = some .uniform)
    (hi : cfg.interval = some [(a, b)]) (x : K) (nominal low : List K) (positions : List (String × ℕ)) (j : ℕ) (n s : K)
    (hj : lookup positions "omega" = some j) (hn : nominal[j]? = some n) (hs : low[j]? = some s) (hc : max (n * s) a ≤ min n b) (hout : om < a ∨ b < om)
    (rvs : Rvs K) (pool : ℕ) (r : K) (h0 : 0 ≤ r) (h1 : r ≤ 1) :
    let w := run World.initial es
    let es' := es ++ [.dict [("omega", x)], .newConst om ⟨some w.heap.length, cfg⟩]
    let o : LoadObj K := ⟨w.heap.length, cfg, some om⟩
    HasLoad es' w.loads.length o ∧ ∃ y, startSpeed es' w.loads.length o nominal low positions rvs pool [r] = .ok [y] ∧ a ≤ y ∧ y ≤ b ∧ o.omega ≠ some y := by
  intro w es' o
  have hrun : run World.initial es' = ⟨w.heap ++ [[("omega", om)]], w.loads ++ [o]⟩ := by
    simp [es', run, List.foldl_append, exec, newConst, hom, o, w, dictSet]
  have ho : HasLoad es' w.loads.length o := by
    unfold HasLoad
    rw [hrun]
    exact ⟨by simp, by simp [o]⟩
  have hes : SpeedOnly es' := by
    intro d hd
    simp only [es', List.mem_append, List.mem_cons, List.not_mem_nil, or_false, reduceCtorEq, Event.dict.injEq] at hd
    rcases hd with hd | hd
    · exact h d hd
    · exact ⟨x, hd⟩
  obtain ⟨y, e1, -, e2, e3, -⟩ := c149_uniform_partial es' hes _ o ho a b hd hi nominal low positions j n s hj hn hs rvs pool r h0 h1 hc
  refine ⟨ho, y, e1, e2, e3, fun e => ?_⟩
  obtain rfl : om = y := Option.some.inj e
  rcases hout with hout | hout <;> linarith

/-- The example `userdefined_initialization.py`: `load=dict(j_load=0.001, load_initializer=uniform_init)` in a current control environment, whose constant speed
load gets `omega_fixed=100`.  With a nominal speed of at least 80 rad/s every episode starts between 60 and 80 rad/s, as the comment says, while
`omega_fixed` is 100. -/
example (rvs : Rvs ℚ) (n r : ℚ) (hn : 80 ≤ n) (h0 : 0 ≤ r) (h1 : r ≤ 1) :
    ∃ y, startSpeed [.dict [("omega", 0)], .newConst 100 ⟨some 2, ⟨[], none, some [(60, 80)], some .uniform, none, none⟩⟩] 0
      ⟨2, ⟨[], none, some [(60, 80)], some .uniform, none, none⟩, some 100⟩ [n, 1, 1] [0, 0, 0] [("omega", 0), ("torque", 1)] rvs 7 [r] = .ok [y] ∧
      60 ≤ y ∧ y ≤ 80 ∧ y ≠ 100 := by
  obtain ⟨-, y, e1, e2, e3, -⟩ := c149_fixed_violated (K := ℚ) [] (fun _ h => absurd h (by simp)) 100 60 80
    ⟨[], none, some [(60, 80)], some .uniform, none, none⟩ (by norm_num) rfl rfl 0 [n, 1, 1] [0, 0, 0] [("omega", 0), ("torque", 1)] 0 n 0 rfl rfl rfl
    (by rw [mul_zero, max_eq_right (by norm_num), min_eq_right hn]; norm_num) (.inr (by norm_num)) rvs 7 r h0 h1
  exact ⟨y, e1, e2, e3, by linarith⟩

end GEM.Props
