import Verif.Props.Dashboard

/-!
# C92–C97: statistics, figures and console
-/

set_option linter.unusedSectionVars false

namespace GEM.Props

open GEM GEM.Dash

variable {K : Type} [Field K] [LinearOrder K] [IsStrictOrderedRing K]

/-! ## C92: plots over the episodes -/

/-- the steps of an episode with these rewards, numbered from `k` -/
def feedSteps (e : Episodes K) (k : ℕ) : List K → Episodes K
  | [] => e
  | r :: rs => feedSteps (e.step k r) (k + 1) rs

/-- `reset` and the steps of an episode, for each episode of a list; the first exception ends it -/
def feed (kind : EpisodeKind) (e : Episodes K) : List (List K) → Call (Episodes K) Unit
  | [] => (e, .ok ())
  | ep :: eps =>
    match e.reset kind with
    | (e', .error err) => (e', .error err)
    | (e', .ok _) => feed kind (feedSteps e' 1 ep) eps

theorem feedSteps_fields (e : Episodes K) (k : ℕ) (rs : List K) :
    (feedSteps e k rs).no = e.no ∧ (feedSteps e k rs).x = e.x ∧ (feedSteps e k rs).y = e.y
      ∧ (feedSteps e k rs).sum = e.sum + rs.sum ∧ (feedSteps e k rs).len = if rs = [] then e.len else k + rs.length - 1 := by
  induction rs generalizing e k with
  | nil => simp [feedSteps]
  | cons r rs ih =>
    obtain ⟨h1, h2, h3, h4, h5⟩ := ih (e.step k r) (k + 1)
    refine ⟨h1, h2, h3, ?_, ?_⟩
    · rw [feedSteps, h4, List.sum_cons, Episodes.step]
      ring
    · rw [feedSteps, h5]
      cases rs with
      | nil => simp [Episodes.step]
      | cons a l => simp; omega

theorem feed_length (e : Episodes K) (cur : List K) (n : ℕ) (hn : e.no = n + 1) (hl : e.len = cur.length) (eps : List (List K)) :
    ∃ e', feed .length e eps = (e', .ok ()) ∧ e'.x = e.x ++ (List.range eps.length).map (n + ·)
      ∧ e'.y = e.y ++ ((cur :: eps).dropLast.map fun ep => (ep.length : K)) := by
  induction eps generalizing e cur n with
  | nil => exact ⟨e, rfl, by simp, by simp⟩
  | cons ep eps ih =>
    obtain ⟨f1, f2, f3, f4, f5⟩ := feedSteps_fields
      ({ e with x := e.x ++ [n], y := e.y ++ [(e.len : K)], len := 0, no := n + 2 } : Episodes K) 1 ep
    obtain ⟨e', g1, g2, g3⟩ := ih (feedSteps
      ({ e with x := e.x ++ [n], y := e.y ++ [(e.len : K)], len := 0, no := n + 2 } : Episodes K) 1 ep) ep (n + 1) f1 (by
        rw [f5]
        split <;> simp_all)
    refine ⟨e', ?_, ?_, ?_⟩
    · rw [feed, Episodes.reset, hn]
      exact g1
    · rw [g2, f2]
      simp only [List.length_cons, List.range_succ_eq_map, List.map_cons, List.map_map, List.append_assoc, List.cons_append,
        List.nil_append, Nat.add_zero]
      congr 2
      apply List.map_congr_left
      intro i _
      simp only [Function.comp_apply]
      omega
    · rw [g3, f3, hl]
      simp

/-- C92.  The plot of the episode lengths shows one point for every finished episode: its number and its number of steps. -/
theorem c92_length (ep : List K) (eps : List (List K)) :
    ∃ e, feed .length Episodes.new (ep :: eps) = (e, .ok ()) ∧ e.x = List.range eps.length
      ∧ e.y = (ep :: eps).dropLast.map fun ep => (ep.length : K) := by
  obtain ⟨f1, f2, f3, f4, f5⟩ := feedSteps_fields ({ (Episodes.new : Episodes K) with no := 1 }) 1 ep
  obtain ⟨e', g1, g2, g3⟩ := feed_length (feedSteps ({ (Episodes.new : Episodes K) with no := 1 }) 1 ep) ep 0 f1 (by
    rw [f5]
    split <;> simp_all [Episodes.new]) eps
  refine ⟨e', g1, ?_, ?_⟩
  · rw [g2, f2]
    simp [Episodes.new]
  · rw [g3, f3]
    simp [Episodes.new]

theorem feed_mean (e : Episodes K) (cur : List K) (n : ℕ) (hn : e.no = n + 1) (hl : e.len = cur.length) (hs : e.sum = cur.sum)
    (eps : List (List K)) (hne : ∀ ep ∈ (cur :: eps).dropLast, ep ≠ []) :
    ∃ e', feed .mean e eps = (e', .ok ()) ∧ e'.x = e.x ++ (List.range eps.length).map (n + ·)
      ∧ e'.y = e.y ++ ((cur :: eps).dropLast.map fun ep => ep.sum / (ep.length : K)) ∧ e'.no = n + 1 + eps.length
      ∧ e'.len = ((cur :: eps).getLast (by simp)).length := by
  induction eps generalizing e cur n with
  | nil => exact ⟨e, rfl, by simp, by simp, by simp [hn], by simp [hl]⟩
  | cons ep eps ih =>
    have h0 : e.len ≠ 0 := by
      rw [hl]
      exact fun h => hne cur (by simp) (List.length_eq_zero_iff.mp h)
    obtain ⟨f1, f2, f3, f4, f5⟩ := feedSteps_fields
      ({ e with x := e.x ++ [n], y := e.y ++ [e.sum / e.len], sum := 0, len := 0, no := n + 2 } : Episodes K) 1 ep
    obtain ⟨e', g1, g2, g3, g4, g5⟩ := ih (feedSteps
      ({ e with x := e.x ++ [n], y := e.y ++ [e.sum / e.len], sum := 0, len := 0, no := n + 2 } : Episodes K) 1 ep) ep (n + 1)
      f1 (by
        rw [f5]
        split <;> simp_all) (by rw [f4]; simp) (fun e he => hne e (by simp [he]))
    refine ⟨e', ?_, ?_, ?_, ?_, ?_⟩
    · rw [feed, Episodes.reset, hn]
      simp only [h0, if_false]
      exact g1
    · rw [g2, f2]
      simp only [List.length_cons, List.range_succ_eq_map, List.map_cons, List.map_map, List.append_assoc, List.cons_append,
        List.nil_append, Nat.add_zero]
      congr 2
      apply List.map_congr_left
      intro i _
      simp only [Function.comp_apply]
      omega
    · rw [g3, f3, hl, hs]
      simp
    · rw [g4]
      simp only [List.length_cons]
      omega
    · rw [g5]
      simp

theorem feed_mean_new (ep : List K) (eps : List (List K)) (hne : ∀ e ∈ (ep :: eps).dropLast, e ≠ []) :
    ∃ e, feed .mean Episodes.new (ep :: eps) = (e, .ok ()) ∧ e.x = List.range eps.length
      ∧ e.y = ((ep :: eps).dropLast.map fun ep => ep.sum / (ep.length : K)) ∧ e.no = 1 + eps.length
      ∧ e.len = ((ep :: eps).getLast (by simp)).length := by
  obtain ⟨f1, f2, f3, f4, f5⟩ := feedSteps_fields ({ (Episodes.new : Episodes K) with no := 1 }) 1 ep
  obtain ⟨e', g1, g2, g3, g4, g5⟩ := feed_mean (feedSteps ({ (Episodes.new : Episodes K) with no := 1 }) 1 ep) ep 0 f1 (by
    rw [f5]
    split <;> simp_all [Episodes.new]) (by rw [f4]; simp [Episodes.new]) eps hne
  refine ⟨e', g1, ?_, ?_, ?_, g5⟩
  · rw [g2, f2]
    simp [Episodes.new]
  · rw [g3, f3]
    simp [Episodes.new]
  · rw [g4]

/-- C92, the part that holds: the plot of the mean rewards shows one point for every finished episode, its number and its mean
reward, as long as no episode without steps has been ended (and the figure exists before the first episode has ended). -/
theorem c92_mean_partial (ep : List K) (eps : List (List K)) (hne : ∀ e ∈ (ep :: eps).dropLast, e ≠ []) :
    ∃ e, feed .mean Episodes.new (ep :: eps) = (e, .ok ()) ∧ e.x = List.range eps.length
      ∧ e.y = (ep :: eps).dropLast.map fun ep => ep.sum / (ep.length : K) := by
  obtain ⟨e, h1, h2, h3, _⟩ := feed_mean_new ep eps hne
  exact ⟨e, h1, h2, h3⟩

/-- C92 is violated by two resets without a step between them: the reset of the environment raises a ZeroDivisionError. -/
theorem c92_mean_violated (ep : List K) (eps : List (List K)) (hne : ∀ e ∈ (ep :: eps), e ≠ []) (next : List K) :
    (feed .mean Episodes.new ((ep :: eps) ++ [[], next])).2 = .error .zeroDiv := by
  have h := feed_mean_new ep (eps ++ [[]]) (by
    rw [← List.cons_append, List.dropLast_concat]
    exact hne)
  obtain ⟨e, h1, -, -, h4, h5⟩ := h
  have key : ∀ (l : List (List K)) (a : Episodes K) (m : List (List K)) (b : Episodes K), feed .mean a l = (b, .ok ()) →
      feed .mean a (l ++ m) = feed .mean b m := by
    intro l
    induction l with
    | nil =>
      intro a m b h
      cases h
      rfl
    | cons c l ih =>
      intro a m b h
      rw [List.cons_append, feed]
      rw [feed] at h
      match hr : a.reset .mean with
      | (e', .error err) => simp [hr] at h
      | (e', .ok _) =>
        simp only [hr] at h ⊢
        exact ih _ m b h
  have e0 : (ep :: eps) ++ [[], next] = (ep :: (eps ++ [[]])) ++ [next] := by simp
  rw [e0, key _ _ [next] _ h1, feed, Episodes.reset]
  have : e.len = 0 := by
    rw [h5]
    simp
  rw [h4, Nat.add_comm 1]
  simp [this]

/-- C92 is violated if the figure is made after `n + 1` episodes have ended (for example when it is shown only once at the end):
the plot of the mean rewards has lost their values, but not their numbers, so that from then on it has more abscissas than
ordinates. -/
theorem c92_init_violated (ep ep' : List K) (eps : List (List K)) (hne : ∀ e ∈ (ep :: ep' :: eps).dropLast, e ≠ []) :
    ∃ e, feed .mean Episodes.new (ep :: ep' :: eps) = (e, .ok ()) ∧ (e.init .mean).y = []
      ∧ (e.init .mean).x.length = eps.length + 1 := by
  obtain ⟨e, h1, h2, h3, _⟩ := feed_mean_new ep (ep' :: eps) hne
  refine ⟨e, h1, rfl, ?_⟩
  show e.x.length = _
  rw [h2]
  simp

example : ∀ e ∈ ([[1, 2], [3], []] : List (List ℚ)).dropLast, e ≠ [] := by decide

/-! ## C93: cumulated violations -/

/-- the numbers of the steps (from 0) that ended with a violation -/
def violationsAt (steps : List Bool) : List ℕ := (List.range steps.length).filter fun i => steps[i]? = some true

theorem violationsAt_snoc (l : List Bool) (b : Bool) :
    violationsAt (l ++ [b]) = violationsAt l ++ if b then [l.length] else [] := by
  unfold violationsAt
  rw [List.length_append, List.length_singleton, List.range_succ, List.filter_append]
  congr 1
  · apply List.filter_congr
    intro i hi
    rw [List.getElem?_append_left (List.mem_range.mp hi)]
  · cases b <;> simp

/-- C93.  The plot is a step function: it starts at (0, 0) and at every violation it goes from the number of violations before
to the one after, between the abscissas of this step and the next one.  It ends at the number of all violations. -/
theorem c93_steps (steps : List Bool) :
    let c := steps.foldl Cum.step Cum.new
    c.k = steps.length ∧ c.x = 0 :: (violationsAt steps).flatMap (fun m => [m, m + 1])
      ∧ c.y = 0 :: (List.range (steps.count true)).flatMap (fun i => [i, i + 1]) ∧ c.no = steps.count true := by
  induction steps using List.reverseRecOn with
  | nil => simp [Cum.new, violationsAt]
  | append_singleton l b ih =>
    obtain ⟨h1, h2, h3, h4⟩ := ih
    simp only [List.foldl_append, List.foldl_cons, List.foldl_nil, violationsAt_snoc]
    cases b with
    | false => simp [Cum.step, h1, h2, h3, h4]
    | true => simp [Cum.step, h1, h2, h3, h4, List.range_succ]

/-- C93.  The last value of the plot is the number of violations. -/
theorem c93_last (steps : List Bool) : (steps.foldl Cum.step Cum.new).y.getLast? = some (steps.count true) := by
  rw [(c93_steps steps).2.2.1]
  cases h : steps.count true with
  | zero => simp
  | succ n =>
    rw [List.range_succ, List.flatMap_append, ← List.cons_append]
    exact List.getLast?_append_of_ne_nil _ (by simp)

/-- C93 is violated after `reset_figures`: there is always one abscissa less than there are ordinates, which matplotlib does not
accept, and the violations from before are still counted. -/
theorem c93_clear_violated (c : Cum) (steps : List Bool) :
    let c' := steps.foldl Cum.step c.clear
    c'.x.length + 1 = c'.y.length ∧ c'.no = c.no + steps.count true := by
  induction steps using List.reverseRecOn with
  | nil => simp [Cum.clear]
  | append_singleton l b ih =>
    obtain ⟨h1, h2⟩ := ih
    simp only [List.foldl_append, List.foldl_cons, List.foldl_nil]
    cases b with
    | false => simpa [Cum.step] using ⟨h1, h2⟩
    | true =>
      simp only [Cum.step, if_true, List.length_append, List.length_cons, List.length_nil, List.count_append, List.count_singleton]
      exact ⟨by omega, by simp [h2, Nat.add_assoc]⟩

/-! ## C94: `reset_figures` -/

/-- C94, the part that holds: after `reset_figures` the state and action plots show exactly the steps since then. -/
theorem c94_partial (c : Cfg K) (hk : c.kind ≠ .reward) (hw : 0 < c.w) (hl : c.kind = .state → c.high = 1) (p : Plot K)
    (ops1 ops2 : List (PlotOp K)) (h1 : ∀ o ∈ ops1, o ≠ .clear ∧ o ≠ .init) (h2 : ∀ o ∈ ops2, o ≠ .clear)
    (ha : c.kind = .action → ∀ v ∈ stepsOf (ops1 ++ ops2), v.action ≠ none) :
    let q := (PlotOp.clear :: ops1 ++ PlotOp.init :: ops2 ++ [PlotOp.draw]).foldl (doOp c) p
    let steps := stepsOf (ops1 ++ ops2)
    shownPoints c.w q 0 = lastPoints c.w steps.length (pts (pointOf c c.limit) steps) := by
  refine (c90_points c hw hl (p.clear c) (fresh_clear c p) ?_ ops1 ops2 h1 h2 ha).1
  cases h : c.kind with
  | state => exact .inl rfl
  | action => right; simp [Plot.clear, h]
  | reward => exact absurd h hk

/-- C94 is violated by the reward plot: after `reset_figures` it is never updated again; it keeps showing what it showed when
the new figure was made, however many steps and renderings follow. -/
theorem c94_reward_violated (c : Cfg K) (hk : c.kind = .reward) (p : Plot K) (ops1 ops2 : List (PlotOp K))
    (h1 : ∀ o ∈ ops1, o ≠ .clear ∧ o ≠ .init) (h2 : ∀ o ∈ ops2, o ≠ .clear ∧ o ≠ .init) (i : ℕ) :
    shownPoints c.w ((PlotOp.clear :: ops1 ++ PlotOp.init :: ops2).foldl (doOp c) p) i
      = shownPoints c.w ((PlotOp.clear :: ops1 ++ [PlotOp.init]).foldl (doOp c) p) i := by
  have key : ∀ (l : List (PlotOp K)) (p : Plot K), p.yData = [] → (∀ o ∈ l, o ≠ .clear ∧ o ≠ .init) →
      (l.foldl (doOp c) p).yData = [] ∧ (l.foldl (doOp c) p).lines = p.lines := by
    intro l
    induction l with
    | nil => intro p hp _; exact ⟨hp, rfl⟩
    | cons o l ih =>
      intro p hp ho
      obtain ⟨ho1, ho2⟩ := ho o (by simp)
      have : (doOp c p o).yData = [] ∧ (doOp c p o).lines = p.lines := by
        cases o with
        | clear => exact absurd rfl ho1
        | init => exact absurd rfl ho2
        | reset => exact ⟨hp, rfl⟩
        | step v =>
          exact ⟨by simp [doOp, Plot.step, hk, hp], by simp [doOp, Plot.step, hk]⟩
        | draw =>
          refine ⟨(draw_fields c p).2.2.2.2.2.trans hp, ?_⟩
          simp only [doOp, Plot.draw]
          split <;> simp [hp]
      obtain ⟨g1, g2⟩ := ih _ this.1 fun o' h' => ho o' (by simp [h'])
      exact ⟨g1, g2.trans this.2⟩
  have e1 := (key ops1 (p.clear c) (by simp [Plot.clear, hk]) h1).1
  have e2 : ((ops1.foldl (doOp c) (p.clear c)).init c).yData = [] := by
    simpa [Plot.init, hk] using e1
  have e3 := (key ops2 _ e2 h2).2
  unfold shownPoints
  simp only [List.cons_append, List.foldl_cons, List.foldl_append, List.foldl_nil, doOp] at e3 ⊢
  rw [e3]

/-! ## C95: the console -/

/-- operations on the printer -/
inductive ConsoleOp (K : Type)
  | reset
  | step (k : ℕ) (reward : K) (terminated : Bool)
  | render

/-- the printer after a history and what it has printed -/
def console (s : Console K × List (Summary K)) : ConsoleOp K → Console K × List (Summary K)
  | .reset => (s.1.onReset, s.2)
  | .step k r b => (s.1.onStep k r b, s.2)
  | .render => (s.1.render.1, s.2 ++ s.1.render.2.toList)

/-- a step: reward, violation and whether `render` is called after it -/
abbrev CStep (K : Type) := K × Bool × Bool

/-- the operations of the steps of an episode, numbered from `k` -/
def stepOps (k : ℕ) : List (CStep K) → List (ConsoleOp K)
  | [] => []
  | v :: l => .step k v.1 v.2.1 :: ((if v.2.2 then [.render] else []) ++ stepOps (k + 1) l)

/-- the summary of the `i`-th episode -/
def summaryOf (i : ℕ) (ep : List (CStep K)) : Summary K :=
  ⟨i, (ep.getLast?.map fun v => v.2.1).getD false, ep.length, (ep.map fun v => v.1).sum⟩

theorem console_steps (s : Console K × List (Summary K)) (hs : s.1.reset = false) (k : ℕ) (l : List (CStep K)) :
    let s' := (stepOps k l).foldl console s
    s'.2 = s.2 ∧ s'.1.reset = false ∧ s'.1.episode = s.1.episode ∧ s'.1.cum = s.1.cum + (l.map fun v => v.1).sum
      ∧ s'.1.k = (if l = [] then s.1.k else k + l.length - 1)
      ∧ s'.1.done = (l.getLast?.map fun v => v.2.1).getD s.1.done := by
  induction l generalizing s k with
  | nil => simp [stepOps, hs]
  | cons v l ih =>
    have hr : ((if v.2.2 then [ConsoleOp.render] else []) : List (ConsoleOp K)).foldl console
        (console s (.step k v.1 v.2.1)) = console s (.step k v.1 v.2.1) := by
      split
      · simp [console, Console.render, Console.onStep, hs]
      · rfl
    simp only [stepOps, List.foldl_cons, List.foldl_append, hr]
    obtain ⟨h1, h2, h3, h4, h5, h6⟩ := ih (console s (.step k v.1 v.2.1)) (by simp [console, Console.onStep, hs]) (k + 1)
    refine ⟨h1, h2, h3, ?_, ?_, ?_⟩
    · rw [h4]
      simp [console, Console.onStep, add_assoc]
    · rw [h5]
      cases l with
      | nil => simp [console, Console.onStep]
      | cons a l => simp; omega
    · rw [h6]
      cases l with
      | nil => simp [console, Console.onStep]
      | cons a l => rw [List.getLast?_cons_cons]; simp [List.getLast?_cons]

/-- C95, the part that holds: if `render` is called after every reset (and after some or all steps), the printer prints the
summary of every finished episode with its number (from 1), its end, its length and its return; before them a summary of an
episode 0 without steps. -/
theorem c95_partial (eps : List (List (CStep K))) (hne : ∀ ep ∈ eps, ep ≠ []) (hl : eps ≠ []) :
    ((eps.flatMap fun ep => .reset :: .render :: stepOps 1 ep).foldl console (Console.new, [])).2
      = ⟨0, false, 0, 0⟩ :: (List.range (eps.length - 1)).map fun i => summaryOf (i + 1) (eps.getD i []) := by
  have key : ∀ eps : List (List (CStep K)), (∀ ep ∈ eps, ep ≠ []) → eps ≠ [] →
      let s := (eps.flatMap fun ep => .reset :: .render :: stepOps 1 ep).foldl console (Console.new, [])
      s.2 = ⟨0, false, 0, 0⟩ :: (List.range (eps.length - 1)).map (fun i => summaryOf (i + 1) (eps.getD i []))
        ∧ s.1.reset = false ∧ (⟨s.1.episode, s.1.done, s.1.k, s.1.cum⟩ : Summary K)
          = summaryOf eps.length (eps.getD (eps.length - 1) []) := by
    intro eps
    induction eps using List.reverseRecOn with
    | nil => intro _ h; exact absurd rfl h
    | append_singleton l ep ih =>
      intro hne _
      have hep : ep ≠ [] := hne ep (by simp)
      have fin : ∀ (s : Console K × List (Summary K)) (i : ℕ), s.1.reset = false → s.1.episode = i → s.1.cum = 0 →
          let s' := (stepOps 1 ep).foldl console s
          s'.2 = s.2 ∧ s'.1.reset = false ∧ (⟨s'.1.episode, s'.1.done, s'.1.k, s'.1.cum⟩ : Summary K) = summaryOf i ep := by
        intro s i h1 h2 h3
        obtain ⟨g1, g2, g3, g4, g5, g6⟩ := console_steps s h1 1 ep
        refine ⟨g1, g2, ?_⟩
        simp only [summaryOf]
        rw [g3, g4, g5, g6, h2, h3, if_neg hep, zero_add, Nat.add_sub_cancel_left]
        obtain ⟨a, m, rfl⟩ := List.exists_cons_of_ne_nil hep
        simp [List.getLast?_cons]
      rw [List.flatMap_append, List.foldl_append]
      simp only [List.flatMap_cons, List.flatMap_nil, List.append_nil, List.foldl_cons]
      by_cases hl : l = []
      · subst hl
        simp only [List.flatMap_nil, List.foldl_nil, List.nil_append, List.length_singleton, Nat.sub_self, List.range_zero,
          List.map_nil, List.getD_cons_zero]
        obtain ⟨g1, g2, g3⟩ := fin (console (console ((Console.new : Console K), []) .reset) .render) 1 rfl rfl rfl
        exact ⟨g1, g2, g3⟩
      · obtain ⟨h1, h2, h3⟩ := ih (fun e he => hne e (by simp [he])) hl
        set s := (l.flatMap fun ep => .reset :: .render :: stepOps 1 ep).foldl console ((Console.new : Console K), []) with hs
        have hc : console (console s .reset) .render
            = (⟨s.1.k, 0, s.1.done, s.1.episode + 1, false⟩, s.2 ++ [⟨s.1.episode, s.1.done, s.1.k, s.1.cum⟩]) := by
          simp [console, Console.onReset, Console.render]
        rw [hc, h3]
        have he : s.1.episode = l.length := by
          have := congrArg Summary.episode h3
          simpa [summaryOf] using this
        obtain ⟨g1, g2, g3⟩ := fin (⟨s.1.k, 0, s.1.done, s.1.episode + 1, false⟩,
          s.2 ++ [summaryOf l.length (l.getD (l.length - 1) [])]) (l.length + 1) rfl (by rw [← he]) rfl
        have hpos : 0 < l.length := List.length_pos_of_ne_nil hl
        obtain ⟨n, hn⟩ : ∃ n, l.length = n + 1 := ⟨l.length - 1, by omega⟩
        refine ⟨?_, g2, ?_⟩
        · rw [g1, h1]
          simp only [List.length_append, List.length_singleton, Nat.add_sub_cancel, List.cons_append, List.cons.injEq, true_and]
          rw [hn, Nat.add_sub_cancel, List.range_succ, List.map_append, List.map_singleton]
          congr 1
          · apply List.map_congr_left
            intro i hi
            have hi := List.mem_range.mp hi
            rw [List.getD_eq_getElem?_getD, List.getD_eq_getElem?_getD, List.getElem?_append_left (by omega)]
          · rw [List.getD_eq_getElem?_getD, List.getD_eq_getElem?_getD, List.getElem?_append_left (by omega)]
        · rw [g3]
          simp only [List.length_append, List.length_singleton, Nat.add_sub_cancel]
          rw [List.getD_eq_getElem?_getD, List.getElem?_append_right le_rfl]
          simp
  exact (key eps hne hl).1

/-- C95 is violated in the usual loop, in which `render` is called after every step and not after a reset: every summary that is
printed claims that the episode had one step. -/
theorem c95_violated (eps : List (List (CStep K))) (hne : ∀ ep ∈ eps, ep ≠ []) (hr : ∀ ep ∈ eps, ∀ v ∈ ep, v.2.2 = true) :
    let out := ((eps.flatMap fun ep => .reset :: stepOps 1 ep).foldl console (Console.new, [])).2
    out.length = eps.length ∧ ∀ s ∈ out, s.steps = 1 := by
  have key : ∀ (eps : List (List (CStep K))) (s : Console K × List (Summary K)), s.1.reset = false → (∀ ep ∈ eps, ep ≠ []) →
      (∀ ep ∈ eps, ∀ v ∈ ep, v.2.2 = true) → (∀ t ∈ s.2, t.steps = 1) →
      let out := ((eps.flatMap fun ep => .reset :: stepOps 1 ep).foldl console s).2
      out.length = s.2.length + eps.length ∧ ∀ t ∈ out, t.steps = 1 := by
    intro eps
    induction eps with
    | nil => intro s _ _ _ h; exact ⟨rfl, h⟩
    | cons ep eps ih =>
      intro s h0 hne hr ht
      obtain ⟨v, l, rfl⟩ := List.exists_cons_of_ne_nil (hne ep (by simp))
      have hv : v.2.2 = true := hr _ (List.mem_cons_self ..) v (by simp)
      simp only [List.flatMap_cons, List.foldl_append, List.foldl_cons, List.cons_append, stepOps, hv, if_true, List.nil_append]
      obtain ⟨g1, g2, -⟩ := console_steps (console (console (console s .reset) (.step 1 v.1 v.2.1)) .render)
        (by simp [console, Console.onReset, Console.onStep, Console.render]) 2 l
      have hout : (console (console (console s .reset) (.step 1 v.1 v.2.1)) .render).2
          = s.2 ++ [⟨s.1.episode, v.2.1, 1, s.1.cum + v.1⟩] := by
        simp [console, Console.onReset, Console.onStep, Console.render]
      obtain ⟨f1, f2⟩ := ih _ g2 (fun e he => hne e (by simp [he])) (fun e he => hr e (by simp [he])) (by
        rw [g1, hout]
        intro t h
        rcases List.mem_append.mp h with h | h
        · exact ht t h
        · rw [List.mem_singleton.mp h])
      refine ⟨?_, f2⟩
      rw [f1, g1, hout]
      simp
      omega
  have := key eps (Console.new, []) rfl hne hr (by simp)
  simpa using this

/-! ## C96: updates -/

/-- what the steps of a run do to the plots, step by step -/
def boardRun (mode : Mode) (interval : ℕ) (b : Board) : ℕ → Board × List (List Act)
  | 0 => (b, [])
  | n + 1 =>
    let r := boardRun mode interval b n
    let s := r.1.step mode interval
    (s.1, r.2 ++ [s.2])

/-- C96.  With the render mode `Figure` the figure is made in the first step and the plots are updated in exactly every
`update_interval`-th step. -/
theorem c96_figure (interval : ℕ) (n : ℕ) :
    (boardRun .figure interval ⟨0, false, false⟩ n).2
      = (List.range n).map fun i => (if i = 0 then [Act.init] else []) ++ (if (i + 1) % interval = 0 then [Act.draw] else []) := by
  have key : (boardRun .figure interval ⟨0, false, false⟩ n).1 = ⟨n, false, decide (0 < n)⟩ ∧
      (boardRun .figure interval ⟨0, false, false⟩ n).2
      = (List.range n).map fun i => (if i = 0 then [Act.init] else []) ++ (if (i + 1) % interval = 0 then [Act.draw] else []) := by
    induction n with
    | zero => exact ⟨rfl, rfl⟩
    | succ n ih =>
      obtain ⟨h1, h2⟩ := ih
      simp only [boardRun, h1, h2, Board.step, Board.count, Board.render, if_true, List.range_succ, List.map_append,
        List.map_singleton, Bool.false_or, decide_eq_true_eq]
      refine ⟨by simp, ?_⟩
      congr 2
      rcases Nat.eq_zero_or_pos n with rfl | hn
      · simp
      · simp [hn, hn.ne']
  exact key.2

/-- C96.  With the render mode `FigureOnce` nothing happens before `close`, which makes the figure; the plots are only updated if
there was at least one `update_interval` of steps. -/
theorem c96_once_partial (interval : ℕ) (hi : 0 < interval) (n : ℕ) :
    let r := boardRun .figureOnce interval ⟨0, false, false⟩ n
    r.2 = List.replicate n [] ∧ (r.1.close .figureOnce).2 = Act.init :: if interval ≤ n then [Act.draw] else [] := by
  have key : (boardRun .figureOnce interval ⟨0, false, false⟩ n).1 = ⟨n, decide (interval ≤ n), false⟩ ∧
      (boardRun .figureOnce interval ⟨0, false, false⟩ n).2 = List.replicate n [] := by
    induction n with
    | zero => exact ⟨by simp [boardRun]; omega, rfl⟩
    | succ n ih =>
      obtain ⟨h1, h2⟩ := ih
      simp only [boardRun, h1, h2, Board.step, Board.count, reduceCtorEq, if_false, List.replicate_succ']
      refine ⟨?_, trivial⟩
      congr 1
      rw [← Bool.decide_or]
      apply decide_eq_decide.mpr
      constructor
      · rintro (h | h)
        · omega
        · exact Nat.le_of_dvd (by omega) (Nat.dvd_of_mod_eq_zero h)
      · intro h
        rcases Nat.lt_or_ge n interval with h' | h'
        · right
          have : n + 1 = interval := by omega
          rw [this, Nat.mod_self]
        · exact .inl h'
  refine ⟨key.2, ?_⟩
  rw [key.1]
  simp only [Board.close, Board.render, if_true]
  by_cases h : interval ≤ n <;> simp [h]

/-- C96 is violated by runs shorter than `update_interval` (1000 steps by default): the figure made at the end is never updated,
so the vertical lines and the points of the episode plots, which are only drawn by an update, are missing. -/
theorem c96_once_violated (interval : ℕ) (n : ℕ) (hn : n < interval) :
    ((boardRun .figureOnce interval ⟨0, false, false⟩ n).1.close .figureOnce).2 = [Act.init] := by
  have := (c96_once_partial interval (by omega) n).2
  rw [this, if_neg (by omega)]

/-! ## C97: scaling to the data -/

theorem foldl_min_le (l : List K) (a : K) : l.foldl min a ≤ a ∧ ∀ v ∈ l, l.foldl min a ≤ v := by
  induction l generalizing a with
  | nil => simp
  | cons b l ih =>
    obtain ⟨h1, h2⟩ := ih (min a b)
    refine ⟨h1.trans (min_le_left _ _), ?_⟩
    intro v hv
    rcases List.mem_cons.mp hv with rfl | hv
    · exact h1.trans (min_le_right _ _)
    · exact h2 v hv

theorem le_foldl_max (l : List K) (a : K) : a ≤ l.foldl max a ∧ ∀ v ∈ l, v ≤ l.foldl max a := by
  induction l generalizing a with
  | nil => simp
  | cons b l ih =>
    obtain ⟨h1, h2⟩ := ih (max a b)
    refine ⟨(le_max_left _ _).trans h1, ?_⟩
    intro v hv
    rcases List.mem_cons.mp hv with rfl | hv
    · exact (le_max_right _ _).trans h1
    · exact h2 v hv

theorem sgn_mul_nonneg (x : K) : 0 ≤ sgn x * (1 / 10) * x := by
  unfold sgn
  split
  · rename_i h
    have := h.le
    positivity
  · split
    · rename_i h
      have : 0 ≤ -x := by linarith
      have : 0 ≤ (1 / 10 : K) * -x := by positivity
      linarith
    · simp

/-- C97, the part that holds: with `scale_plots` a referenced state is plotted between limits that contain all values of the
state and of its reference. -/
theorem c97_partial (c : Cfg K) (p : Plot K) (hy : p.yData = [0, 1]) (lo hi : K) (h : p.scaleY c = .ok (some (lo, hi))) (j : ℕ)
    (hj : j < c.w) (v : K) (hv : p.main j = some v ∨ p.ref j = some v) : lo ≤ v ∧ v ≤ hi := by
  have mem : ∀ a : ℕ → Option K, a j = some v → v ∈ entries c.w a := fun a ha =>
    List.mem_filterMap.mpr ⟨j, List.mem_range.mpr hj, ha⟩
  unfold Plot.scaleY at h
  split at h
  · rw [hy] at h
    simp only [Plot.array, if_true] at h
    have e10 : (if (1 : Fin 2) = 0 then p.main else p.ref) = p.ref := by simp
    rw [e10] at h
    match hm : entries c.w p.main, hr : entries c.w p.ref with
    | [], _ => simp [hm] at h
    | a :: as, [] => simp [hm, hr] at h
    | a :: as, b :: bs =>
      simp only [hm, hr, Except.ok.injEq, Option.some.injEq, Prod.mk.injEq] at h
      obtain ⟨rfl, rfl⟩ := h
      have s1 := sgn_mul_nonneg (min (as.foldl min a) (bs.foldl min b))
      have s2 := sgn_mul_nonneg (max (as.foldl max a) (bs.foldl max b))
      have l1 := min_le_left (as.foldl min a) (bs.foldl min b)
      have l2 := min_le_right (as.foldl min a) (bs.foldl min b)
      have m1 := le_max_left (as.foldl max a) (bs.foldl max b)
      have m2 := le_max_right (as.foldl max a) (bs.foldl max b)
      obtain ⟨a1, a2⟩ := foldl_min_le as a
      obtain ⟨b1, b2⟩ := foldl_min_le bs b
      obtain ⟨c1, c2⟩ := le_foldl_max as a
      obtain ⟨d1, d2⟩ := le_foldl_max bs b
      rcases hv with hv | hv
      · have := mem _ hv
        rw [hm] at this
        rcases List.mem_cons.mp this with rfl | this
        · constructor <;> linarith
        · have := a2 v this
          have := c2 v ‹_›
          constructor <;> linarith
      · have := mem _ hv
        rw [hr] at this
        rcases List.mem_cons.mp this with rfl | this
        · constructor <;> linarith
        · have := b2 v this
          have := d2 v ‹_›
          constructor <;> linarith
  · simp at h

/-- C97 is violated by action and reward plots: with `scale_plots` they raise an IndexError at the first rendering with data. -/
theorem c97_action_violated (c : Cfg K) (hs : c.scale = true) (p : Plot K) (hy : p.yData = [0]) (j : ℕ) (hj : j < c.w) (v : K)
    (hv : p.main j = some v) : (p.draw c).2 = .error .index := by
  have hne : entries c.w p.main ≠ [] := by
    intro h
    have : v ∈ entries c.w p.main := List.mem_filterMap.mpr ⟨j, List.mem_range.mpr hj, hv⟩
    rw [h] at this
    cases this
  have : p.scaleY c = .error .index := by
    unfold Plot.scaleY
    rw [if_pos hs, hy]
    simp [Plot.array, hne]
  unfold Plot.draw
  simp only [this]

/-- C97 is violated by states without a reference: they are never scaled. -/
theorem c97_unreferenced_violated (c : Cfg K) (hs : c.scale = true) (p : Plot K) (hy : p.yData = [0, 1])
    (hr : ∀ j, p.ref j = none) : p.scaleY c = .ok none := by
  have : entries c.w p.ref = [] := by
    rw [entries, List.filterMap_eq_nil_iff]
    exact fun j _ => hr j
  unfold Plot.scaleY
  rw [if_pos hs, hy]
  simp only [Plot.array, if_true]
  have e10 : (if (1 : Fin 2) = 0 then p.main else p.ref) = p.ref := by simp
  rw [e10, this]
  cases entries c.w p.main <;> rfl

/-- a state with the values 1 and 3 and the reference 2 is plotted between 9/10 and 33/10 -/
example :
    let c : Cfg ℚ := ⟨.state, 2, 1, 1, 1, true, true⟩
    let v : ℚ → PlotOp ℚ := fun x => .step ⟨x, 2, none, 0, false⟩
    let q := ([v 1, v 3, .init] : List (PlotOp ℚ)).foldl (doOp c) (Plot.new c)
    q.scaleY c = .ok (some (9 / 10, 33 / 10)) := by
  simp [doOp, Plot.new, Plot.step, Plot.init, Plot.scaleY, Time.new, Time.stepEnd, Time.init, Cfg.scaled, entries, Plot.array,
    List.range_succ, sgn, Function.update]
  norm_num

/-! ## C94 for the other plots -/

/-- C94.  Length plot: after `reset_figures` the plot shows the lengths of the episodes begun since then as a new one does. -/
theorem c94_length_partial (e : Episodes K) (ep : List K) (hne : ep ≠ []) (eps : List (List K)) :
    ∃ e', feed .length e.clear (ep :: eps) = (e', .ok ()) ∧ e'.x = List.range eps.length
      ∧ e'.y = (ep :: eps).dropLast.map fun ep => (ep.length : K) := by
  obtain ⟨f1, f2, f3, f4, f5⟩ := feedSteps_fields ({ e.clear with no := 1 }) 1 ep
  obtain ⟨e', g1, g2, g3⟩ := feed_length (feedSteps ({ e.clear with no := 1 }) 1 ep) ep 0 f1 (by
    rw [f5, if_neg hne]
    omega) eps
  refine ⟨e', ?_, ?_, ?_⟩
  · rw [feed]
    exact g1
  · rw [g2, f2]
    simp [Episodes.clear]
  · rw [g3, f3]
    simp [Episodes.clear]

/-- an episode plot in use -/
example : ([1, 1] : List ℚ) ≠ [] := by simp

/-- C94 is violated by the plot of the mean rewards: the rewards of the episode that was running are counted in the first mean
value of the new figure. -/
theorem c94_mean_violated (e : Episodes K) (ep : List K) (hne : ep ≠ []) (hs : e.sum ≠ 0) (next : List K) :
    ∃ e', feed .mean e.clear [ep, next] = (e', .ok ()) ∧ e'.y = [(e.sum + ep.sum) / ep.length]
      ∧ e'.y ≠ [ep.sum / ep.length] := by
  obtain ⟨f1, f2, f3, f4, f5⟩ := feedSteps_fields ({ e.clear with no := 1 }) 1 ep
  have hl : (feedSteps ({ e.clear with no := 1 }) 1 ep).len = ep.length := by
    rw [f5, if_neg hne]
    omega
  have hpos : ep.length ≠ 0 := by simpa using hne
  have hn : (feedSteps ({ e.clear with no := 1 }) 1 ep).no = 1 := f1
  generalize ha : feedSteps ({ e.clear with no := 1 }) 1 ep = a at *
  have hy : ∃ e', feed .mean e.clear [ep, next] = (e', .ok ()) ∧ e'.y = [(e.sum + ep.sum) / ep.length] := by
    refine ⟨feedSteps ⟨2, a.x ++ [0], a.y ++ [a.sum / a.len], 0, 0⟩ 1 next, ?_, ?_⟩
    · rw [feed, show e.clear.reset .mean = ({ e.clear with no := 1 }, .ok ()) from rfl]
      show feed .mean (feedSteps ({ e.clear with no := 1 }) 1 ep) [next] = _
      rw [ha, feed, Episodes.reset]
      simp only [hn, hl, hpos, if_false]
      rfl
    · rw [(feedSteps_fields _ _ _).2.2.1]
      simp only
      rw [f3, f4, hl]
      simp [Episodes.clear]
  obtain ⟨e', h1, h2⟩ := hy
  refine ⟨e', h1, h2, ?_⟩
  rw [h2]
  intro h
  have hc : (ep.length : K) ≠ 0 := Nat.cast_ne_zero.mpr hpos
  have := List.head_eq_of_cons_eq h
  rw [div_left_inj' hc] at this
  exact hs (by linarith)

/-- C94, vertical lines: the lines after `reset_figures` and a new figure do not depend on what was drawn or remembered before. -/
theorem c94_lines (c : Cfg K) (hs : c.scale = false) (p p' : Plot K) (hd : p.time.done = p'.time.done)
    (ops1 ops2 : List (PlotOp K)) :
    let t := ((PlotOp.clear :: ops1 ++ PlotOp.init :: ops2).foldl (doOp c) p).time
    let t' := ((PlotOp.clear :: ops1 ++ PlotOp.init :: ops2).foldl (doOp c) p').time
    t.red = t'.red ∧ t.blue = t'.blue ∧ t.violations = t'.violations ∧ t.resets = t'.resets := by
  -- equal up to the lines
  have step : ∀ (o : PlotOp K) (q q' : Plot K), { q.time with blue := [], red := [] } = { q'.time with blue := [], red := [] } →
      { (doOp c q o).time with blue := [], red := [] } = { (doOp c q' o).time with blue := [], red := [] } ∧
      (q.time = q'.time → (doOp c q o).time = (doOp c q' o).time) := by
    intro o q q' h
    obtain ⟨⟨k, t, done, rs, vs, bl, rd, x⟩, m, r, y, l⟩ := q
    obtain ⟨⟨k', t', done', rs', vs', bl', rd', x'⟩, m', r', y', l'⟩ := q'
    simp only [Time.mk.injEq, true_and] at h
    obtain ⟨rfl, rfl, rfl, rfl, rfl, rfl⟩ := h
    constructor
    · cases o with
      | reset => rcases done with _ | (_ | _) <;> simp [doOp, Time.reset]
      | step v => cases hk : c.kind <;> simp [doOp, Plot.step, hk, Time.stepEnd]
      | init => simp [doOp, Plot.init, Time.init]
      | draw => simp [doOp, Plot.draw, Plot.scaleY, hs, Time.draw]
      | clear => cases hk : c.kind <;> simp [doOp, Plot.clear, hk, Time.clear]
    · intro h
      simp only [Time.mk.injEq, true_and, and_true] at h
      obtain ⟨rfl, rfl⟩ := h
      cases o with
      | reset => rcases done with _ | (_ | _) <;> simp [doOp, Time.reset]
      | step v => cases hk : c.kind <;> simp [doOp, Plot.step, hk, Time.stepEnd]
      | init => simp [doOp, Plot.init, Time.init]
      | draw => simp [doOp, Plot.draw, Plot.scaleY, hs, Time.draw]
      | clear => cases hk : c.kind <;> simp [doOp, Plot.clear, hk, Time.clear]
  have run : ∀ (ops : List (PlotOp K)) (q q' : Plot K), { q.time with blue := [], red := [] } = { q'.time with blue := [], red := [] } →
      { (ops.foldl (doOp c) q).time with blue := [], red := [] } = { (ops.foldl (doOp c) q').time with blue := [], red := [] } ∧
      (q.time = q'.time → (ops.foldl (doOp c) q).time = (ops.foldl (doOp c) q').time) := by
    intro ops
    induction ops with
    | nil => exact fun q q' h => ⟨h, fun h => h⟩
    | cons o ops ih =>
      intro q q' h
      obtain ⟨h1, h2⟩ := ih _ _ (step o q q' h).1
      exact ⟨h1, fun he => h2 ((step o q q' h).2 he)⟩
  intro t t'
  have h1 : { (doOp c p .clear).time with blue := [], red := [] } = { (doOp c p' .clear).time with blue := [], red := [] } := by
    cases hk : c.kind <;> simp [doOp, Plot.clear, hk, Time.clear, hd]
  have h2 := (run ops1 _ _ h1).1
  have h3 : (doOp c (ops1.foldl (doOp c) (doOp c p .clear)) .init).time
      = (doOp c (ops1.foldl (doOp c) (doOp c p' .clear)) .init).time := by
    simp only [doOp, Plot.init, Time.init]
    exact h2
  have h4 : t = t' := by
    have := (run ops2 _ _ (by rw [h3])).2 h3
    simpa only [t, t', List.cons_append, List.foldl_cons, List.foldl_append] using this
  rw [h4]
  exact ⟨rfl, rfl, rfl, rfl⟩

end GEM.Props
