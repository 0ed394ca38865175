import Verif.Model.Plotter
import Verif.Props.Dashboard

/-!
# C110: `env.sim`,  C111: plotted references of subordinate stages,  C112: what a controller plots
-/

set_option linter.unusedSectionVars false

namespace GEM.Props

open GEM GEM.Dash

variable {K : Type} [Field K] [LinearOrder K] [IsStrictOrderedRing K]

/-! ## C110 -/

/-- the sampling times of the environments made in a history, in the order they were made -/
def madeTaus : List (EnvOp K) → List K
  | [] => []
  | .make tau :: l => tau :: madeTaus l
  | _ :: l => madeTaus l

/-- the steps environment `i` has made since its last reset -/
def stepsSince (i : ℕ) (l : List (EnvOp K)) : ℕ :=
  l.foldl (fun n o => match o with
    | .make _ => n
    | .reset j => if j = i then 0 else n
    | .step j => if j = i then n + 1 else n) 0

theorem madeTaus_append (l m : List (EnvOp K)) : madeTaus (l ++ m) = madeTaus l ++ madeTaus m := by
  induction l with
  | nil => rfl
  | cons a l ih => cases a <;> simp [madeTaus, ih]

theorem sim_run (l : List (EnvOp K)) :
    (l.foldl Sim.after Sim.new).step = 0 ∧ (l.foldl Sim.after Sim.new).tau = (madeTaus l).getLast?.getD 0 := by
  induction l using List.reverseRecOn with
  | nil => exact ⟨rfl, rfl⟩
  | append_singleton l o ih =>
    rw [List.foldl_append, madeTaus_append]
    cases o <;> simp [Sim.after, madeTaus, ih]

/-- C110 where it holds: `env.sim.tau` is the sampling time of the environment that was made last, whatever all environments have
done since, and `env.sim.t` is the time of an environment that has made no step since its last reset. -/
theorem c110_partial (l m : List (EnvOp K)) (tau : K) (hm : madeTaus m = []) (i : ℕ) :
    ((l ++ .make tau :: m).foldl Sim.after Sim.new).tau = tau ∧
    (stepsSince i (l ++ .make tau :: m) = 0 →
      ((l ++ .make tau :: m).foldl Sim.after Sim.new).t = tau * stepsSince i (l ++ .make tau :: m)) := by
  obtain ⟨h1, h2⟩ := sim_run (l ++ .make tau :: m)
  refine ⟨by rw [h2, madeTaus_append]; simp [madeTaus, hm], fun h => ?_⟩
  rw [Sim.t, h1, h]
  simp

/-- C110 is violated for every environment that is not the last one made: its `sim.tau` is the sampling time of another one. -/
theorem c110_tau_violated (l : List (EnvOp K)) (i : ℕ) (tau : K) (hi : (madeTaus l)[i]? = some tau)
    (hl : (madeTaus l).getLast? ≠ some tau) : (l.foldl Sim.after Sim.new).tau ≠ tau := by
  rw [(sim_run l).2]
  have : madeTaus l ≠ [] := by rintro h; simp [h] at hi
  rw [List.getLast?_eq_getLast_of_ne_nil this] at hl ⊢
  simpa using hl

/-- C110 is violated by every step: `env.sim.t` stays 0 and differs from the time `k tau` of the episode. -/
theorem c110_time_violated (l : List (EnvOp K)) (i : ℕ) (tau : K) (htau : tau ≠ 0) (hs : stepsSince i l ≠ 0) :
    (l.foldl Sim.after Sim.new).t = 0 ∧ (l.foldl Sim.after Sim.new).t ≠ stepsSince i l * tau := by
  have : (l.foldl Sim.after Sim.new).t = 0 := by simp [Sim.t, (sim_run l).1]
  refine ⟨this, ?_⟩
  rw [this]
  exact (mul_ne_zero (Nat.cast_ne_zero.mpr hs) htau).symm

/-- two environments with different sampling times, the first one stepped twice -/
example :
    let l : List (EnvOp ℚ) := [.make (1 / 10), .make (1 / 5), .reset 0, .step 0, .step 0]
    (madeTaus l)[0]? = some (1 / 10) ∧ (l.foldl Sim.after Sim.new).tau = 1 / 5 ∧ stepsSince 0 l = 2 := by
  refine ⟨rfl, rfl, rfl⟩

/-! ## C111 -/

/-- One round of `control_environment`: whatever happens to the plot before (rendering, reset), the reference the stage sets, and
the step. -/
structure PlotRound (K : Type) where
  pre : List (PlotOp K)
  r : K
  v : Step K

/-- effect of a round on the plot -/
def doRound (c : Cfg K) (p : Plot K) (d : PlotRound K) : Plot K :=
  ((d.pre.foldl (doOp c) p).note c d.r).step c d.v

/-- renderings and resets -/
def NoData (o : PlotOp K) : Prop := o = .reset ∨ o = .init ∨ o = .draw

theorem quiet_fields (c : Cfg K) (l : List (PlotOp K)) (hl : ∀ o ∈ l, NoData o) (p : Plot K) :
    (l.foldl (doOp c) p).time.k = p.time.k ∧ (l.foldl (doOp c) p).time.t = p.time.t ∧
    (l.foldl (doOp c) p).time.x = p.time.x ∧ (l.foldl (doOp c) p).ref = p.ref := by
  induction l generalizing p with
  | nil => exact ⟨rfl, rfl, rfl, rfl⟩
  | cons o l ih =>
    have h := ih (fun o ho => hl o (by simp [ho])) (doOp c p o)
    simp only [List.foldl_cons]
    rcases hl o (by simp) with rfl | rfl | rfl
    · obtain ⟨r1, r2, r3⟩ := Time.reset_fields p.time
      exact ⟨h.1.trans r1, h.2.1.trans r2, h.2.2.1.trans r3, h.2.2.2⟩
    · exact h
    · obtain ⟨r1, r2, r3, r4, r5, _⟩ := draw_fields c p
      exact ⟨h.1.trans r1, h.2.1.trans r2, h.2.2.1.trans r3, h.2.2.2.trans r5⟩

/-- the points of the reference line after the rounds `l` -/
def roundPoint (c : Cfg K) (l : List (PlotRound K)) (m : ℕ) : K × K :=
  (m * c.tau, match l[m]? with
    | some d => d.r
    | none => (l.getLast?.map fun d => c.scaled d.v.ref).getD 0)

theorem Ring.replace {w n : ℕ} {x : ℕ → K} {y : ℕ → Option K} {pt : ℕ → K × K} (h : Ring w 0 (n + 1) x y pt) (hw : 0 < w) (z : K) :
    Ring w 0 (n + 1) x (Function.update y (n % w) (some z)) (Function.update pt n ((pt n).1, z)) := by
  refine ⟨fun m hm hmw => ?_, fun j hj hn => ?_⟩
  · obtain ⟨h1, h2⟩ := h.1 m hm hmw
    rcases eq_or_ne m n with rfl | hne
    · simp only [Nat.add_zero, Function.update_self]
      simp only [Nat.add_zero] at h1
      exact ⟨h1, trivial⟩
    · have hs : (m + 0) % w ≠ n % w := slot_ne w 0 m n (by omega) (by omega)
      rw [Function.update_of_ne hne, Function.update_of_ne hs]
      exact ⟨h1, h2⟩
  · have : j ≠ n % w := fun e => hn n (by omega) (by omega) (by simp [e])
    rw [Function.update_of_ne this]
    exact h.2 j hj hn

theorem rounds_inv (c : Cfg K) (hk : c.kind = .state) (hr : c.referenced = true) (hw : 0 < c.w) (p : Plot K) (hp : Fresh p)
    (hx : p.time.x 0 = 0) (l : List (PlotRound K)) (hl : ∀ d ∈ l, ∀ o ∈ d.pre, NoData o) :
    let q := l.foldl (doRound c) p
    q.time.k = l.length ∧ q.time.t = l.length * c.tau ∧
    (if l = [] then q.time.x 0 = 0 ∧ ∀ j, q.ref j = none else Ring c.w 0 (l.length + 1) q.time.x q.ref (roundPoint c l)) := by
  induction l using List.reverseRecOn with
  | nil => exact ⟨hp.1, by simpa using hp.2.1, by simpa using ⟨hx, hp.2.2.2⟩⟩
  | append_singleton l d ih =>
    obtain ⟨h1, h2, h3⟩ := ih fun d hd => hl d (by simp [hd])
    simp only [List.foldl_append, List.foldl_cons, List.foldl_nil]
    set q := l.foldl (doRound c) p
    obtain ⟨q1, q2, q3, q4⟩ := quiet_fields c d.pre (hl d (by simp)) q
    simp only [doRound]
    set q' := d.pre.foldl (doOp c) q
    have hne : l ++ [d] ≠ [] := by simp
    rw [if_neg hne]
    -- after `control`: the newest place holds the reference of this round
    have hn : Ring c.w 0 (l.length + 1) q'.time.x (Function.update q'.ref (l.length % c.w) (some d.r))
        (roundPoint c (l ++ [d])) := by
      rw [q3, q4]
      split at h3
      · rename_i hnil
        subst hnil
        refine ⟨fun m hm _ => ?_, fun j hj hn => ?_⟩
        · have : m = 0 := by simpa using hm
          subst this
          simp [roundPoint, h3.1]
        · have := hn 0 (by simp) (by simpa using Nat.succ_le_of_lt hw)
          have hj0 : j ≠ 0 % c.w := fun e => this (by simp [e])
          simp only [List.length_nil]
          rw [Function.update_of_ne hj0]
          exact h3.2 j
      · refine (h3.replace hw d.r).congr fun m hm => ?_
        rcases eq_or_ne m l.length with rfl | hmn
        · simp [roundPoint]
        · rw [Function.update_of_ne hmn]
          have : m < l.length := by omega
          simp [roundPoint, this, List.getElem?_append_left this]
    have hlen : (l ++ [d]).length = l.length + 1 := by simp
    have hk' : q'.time.k = l.length := q1.trans h1
    have ht' : q'.time.t = l.length * c.tau := q2.trans h2
    simp only [Plot.step, Plot.note, hk, hr, if_true, Time.stepEnd, hlen, hk', ht']
    refine ⟨trivial, by push_cast; ring, ?_⟩
    have hwr := hn.write
    have e : roundPoint c (l ++ [d]) (l.length + 1) = (l.length * c.tau + c.tau, c.scaled d.v.ref) := by
      simp only [roundPoint, List.getElem?_eq_none (show (l ++ [d]).length ≤ l.length + 1 by simp)]
      simp
      ring
    rw [e] at hwr
    exact hwr

theorem wired_quiet (c : Cfg K) (p : Plot K) (h : Wired c p) (l : List (PlotOp K)) (hl : ∀ o ∈ l, NoData o) :
    Wired c (l.foldl (doOp c) p) :=
  wired_run c p h l fun o ho => by rcases hl o ho with rfl | rfl | rfl <;> simp

theorem wired_round (c : Cfg K) (p : Plot K) (h : Wired c p) (d : PlotRound K) (hd : ∀ o ∈ d.pre, NoData o) :
    Wired c (doRound c p d) := by
  have h1 := wired_quiet c p h d.pre hd
  have h2 : Wired c ((d.pre.foldl (doOp c) p).note c d.r) := h1
  exact wired_keep c _ h2 (.step d.v) (by simp)

theorem wired_rounds (c : Cfg K) (l : List (PlotRound K)) (hl : ∀ d ∈ l, ∀ o ∈ d.pre, NoData o) (p : Plot K) (h : Wired c p) :
    Wired c (l.foldl (doRound c) p) := by
  induction l generalizing p with
  | nil => exact h
  | cons d l ih => exact ih (fun d hd => hl d (by simp [hd])) _ (wired_round c p h d (hl d (by simp)))

/-- the plot after the rounds `l1`, the opening of the figure, the rounds `l2` and a rendering -/
def afterRounds (c : Cfg K) (p : Plot K) (l1 l2 : List (PlotRound K)) : Plot K :=
  ((l2.foldl (doRound c) ((l1.foldl (doRound c) p).init c)).draw c).1

theorem shown_rounds (c : Cfg K) (hk : c.kind = .state) (hr : c.referenced = true) (hw : 0 < c.w)
    (l1 l2 : List (PlotRound K)) (h1 : ∀ d ∈ l1, ∀ o ∈ d.pre, NoData o) (h2 : ∀ d ∈ l2, ∀ o ∈ d.pre, NoData o) (hne : l1 ++ l2 ≠ []) :
    shownPoints c.w (afterRounds c (Plot.new c) l1 l2) 1
      = lastPoints c.w ((l1 ++ l2).length + 1) (roundPoint c (l1 ++ l2)) := by
  have hwire : Wired c (l2.foldl (doRound c) ((l1.foldl (doRound c) (Plot.new c)).init c)) :=
    wired_rounds c l2 h2 _ (wired_init c _ (.inl hk))
  rw [afterRounds, (draw_lines c _ hwire).2 hk hr]
  -- the opening of the figure may be counted to the first round of `l2`
  have hfold : (l2.foldl (doRound c) ((l1.foldl (doRound c) (Plot.new c)).init c)).time.x
        = ((l1 ++ l2).foldl (doRound c) (Plot.new c)).time.x ∧
      (l2.foldl (doRound c) ((l1.foldl (doRound c) (Plot.new c)).init c)).ref
        = ((l1 ++ l2).foldl (doRound c) (Plot.new c)).ref := by
    rw [List.foldl_append]
    have gen : ∀ (l : List (PlotRound K)), (∀ d ∈ l, ∀ o ∈ d.pre, NoData o) → ∀ a b : Plot K,
        a.time.k = b.time.k → a.time.t = b.time.t → a.time.x = b.time.x → a.ref = b.ref →
        (l.foldl (doRound c) a).time.x = (l.foldl (doRound c) b).time.x ∧
          (l.foldl (doRound c) a).ref = (l.foldl (doRound c) b).ref := by
      intro l
      induction l with
      | nil => intro _ a b _ _ hx hr; exact ⟨hx, hr⟩
      | cons d l ih =>
        intro hl a b e1 e2 e3 e4
        obtain ⟨a1, a2, a3, a4⟩ := quiet_fields c d.pre (hl d (by simp)) a
        obtain ⟨b1, b2, b3, b4⟩ := quiet_fields c d.pre (hl d (by simp)) b
        refine ih (fun d hd => hl d (by simp [hd])) _ _ ?_ ?_ ?_ ?_ <;>
          simp [doRound, Plot.step, Plot.note, hk, hr, Time.stepEnd, a1, a2, a3, a4, b1, b2, b3, b4, e1, e2, e3, e4]
    exact gen l2 h2 _ _ rfl rfl rfl rfl
  rw [hfold.1, hfold.2]
  have inv := (rounds_inv c hk hr hw (Plot.new c) (fresh_new c) (by simp [Plot.new, Time.new]) (l1 ++ l2) (fun d hd => by
    rcases List.mem_append.mp hd with hd | hd
    · exact h1 d hd
    · exact h2 d hd)).2.2
  rw [if_neg hne] at inv
  exact inv.points hw

/-- C111 where it holds.  The reference line of a state a subordinate stage sets shows, for each of the last `w - 1` rounds but the
time after the newest step, the reference the stage set at that time: `r` of the round `m` (from 0) at `m tau`, the beginning of
its step; resets, renderings and the opening of the figure in between do not matter. -/
theorem c111_partial (c : Cfg K) (hk : c.kind = .state) (hr : c.referenced = true) (hw : 0 < c.w)
    (l1 l2 : List (PlotRound K)) (h1 : ∀ d ∈ l1, ∀ o ∈ d.pre, NoData o) (h2 : ∀ d ∈ l2, ∀ o ∈ d.pre, NoData o)
    (htau : 0 < c.tau) (m : ℕ) (d : PlotRound K) (hd : (l1 ++ l2)[m]? = some d) (hm : (l1 ++ l2).length < m + c.w) (y : K) :
    ((m : K) * c.tau, y) ∈ shownPoints c.w (afterRounds c (Plot.new c) l1 l2) 1 ↔ y = d.r := by
  have hlt : m < (l1 ++ l2).length := by
    by_contra h
    rw [List.getElem?_eq_none (by omega)] at hd
    cases hd
  rw [shown_rounds c hk hr hw l1 l2 h1 h2 (by rintro h; simp [h] at hd)]
  constructor
  · rintro ⟨m', hm', hw', e⟩
    obtain ⟨e1, e2⟩ := Prod.mk.inj e
    have : m = m' := by exact_mod_cast mul_right_cancel₀ htau.ne' e1
    subst this
    simpa [hd] using e2
  · rintro rfl
    exact ⟨m, by omega, by omega, by simp [roundPoint, hd]⟩

/-- C111 is violated at the newest time of every rendering: the line ends at the value of the reference generator for this state, which
is 0 when the generator does not reference it, whatever the stages of the controller have set. -/
theorem c111_newest_violated (c : Cfg K) (hk : c.kind = .state) (hr : c.referenced = true) (hw : 0 < c.w)
    (l1 l2 : List (PlotRound K)) (h1 : ∀ d ∈ l1, ∀ o ∈ d.pre, NoData o) (h2 : ∀ d ∈ l2, ∀ o ∈ d.pre, NoData o)
    (htau : 0 < c.tau) (d : PlotRound K) (hd : (l1 ++ l2).getLast? = some d) (y : K) :
    ((l1 ++ l2).length * c.tau, y) ∈ shownPoints c.w (afterRounds c (Plot.new c) l1 l2) 1 ↔ y = c.scaled d.v.ref := by
  rw [shown_rounds c hk hr hw l1 l2 h1 h2 (by rintro h; simp [h] at hd)]
  constructor
  · rintro ⟨m', hm', hw', e⟩
    obtain ⟨e1, e2⟩ := Prod.mk.inj e
    have : (l1 ++ l2).length = m' := by exact_mod_cast mul_right_cancel₀ htau.ne' e1
    subst this
    rw [List.getElem?_eq_none (by simp), hd] at e2
    simpa using e2
  · rintro rfl
    refine ⟨(l1 ++ l2).length, by omega, by omega, ?_⟩
    rw [roundPoint, List.getElem?_eq_none (by simp), hd]
    simp

/-- a plot with three places for a state with the limit 10 -/
def plotDemo : Cfg ℚ := ⟨.state, 3, 1, 10, 1, true, false⟩

/-- a round with the reference `r` -/
def plotRoundDemo (r : ℚ) : PlotRound ℚ := ⟨[.draw], r, ⟨1, 0, none, 0, false⟩⟩

/-- four rounds on a plot of three places: the line shows the references 7 and 8 of the last rounds and then falls to 0 -/
example :
    ((2 : ℚ), 7) ∈ shownPoints 3 (afterRounds plotDemo (Plot.new plotDemo) [plotRoundDemo 5] [plotRoundDemo 6, plotRoundDemo 7, plotRoundDemo 8]) 1 ∧
    ((3 : ℚ), 8) ∈ shownPoints 3 (afterRounds plotDemo (Plot.new plotDemo) [plotRoundDemo 5] [plotRoundDemo 6, plotRoundDemo 7, plotRoundDemo 8]) 1 ∧
    ((4 : ℚ), 0) ∈ shownPoints 3 (afterRounds plotDemo (Plot.new plotDemo) [plotRoundDemo 5] [plotRoundDemo 6, plotRoundDemo 7, plotRoundDemo 8]) 1 := by
  have q : ∀ r, ∀ o ∈ (plotRoundDemo r).pre, NoData o := fun r o ho => by
    simp only [plotRoundDemo, List.mem_singleton] at ho
    exact .inr (.inr ho)
  have q1 : ∀ e ∈ [plotRoundDemo 5], ∀ o ∈ e.pre, NoData o := by
    intro e he
    rw [List.mem_singleton.mp he]
    exact q 5
  have q2 : ∀ e ∈ [plotRoundDemo 6, plotRoundDemo 7, plotRoundDemo 8], ∀ o ∈ e.pre, NoData o := by
    intro e he
    simp only [List.mem_cons, List.not_mem_nil, or_false] at he
    rcases he with rfl | rfl | rfl <;> exact q _
  have ht : 0 < plotDemo.tau := by norm_num [plotDemo]
  have hw : 0 < plotDemo.w := by norm_num [plotDemo]
  have hlen : ([plotRoundDemo 5] ++ [plotRoundDemo 6, plotRoundDemo 7, plotRoundDemo 8]).length = 4 := rfl
  have e2 : ([plotRoundDemo 5] ++ [plotRoundDemo 6, plotRoundDemo 7, plotRoundDemo 8])[2]? = some (plotRoundDemo 7) := by simp
  have e3 : ([plotRoundDemo 5] ++ [plotRoundDemo 6, plotRoundDemo 7, plotRoundDemo 8])[3]? = some (plotRoundDemo 8) := by simp
  have el : ([plotRoundDemo 5] ++ [plotRoundDemo 6, plotRoundDemo 7, plotRoundDemo 8]).getLast? = some (plotRoundDemo 8) := by simp
  have a2 := (c111_partial plotDemo rfl rfl hw [plotRoundDemo 5] [plotRoundDemo 6, plotRoundDemo 7, plotRoundDemo 8] q1 q2 ht 2 (plotRoundDemo 7) e2 (by rw [hlen]; norm_num [plotDemo]) 7).mpr rfl
  have a3 := (c111_partial plotDemo rfl rfl hw [plotRoundDemo 5] [plotRoundDemo 6, plotRoundDemo 7, plotRoundDemo 8] q1 q2 ht 3 (plotRoundDemo 8) e3 (by rw [hlen]; norm_num [plotDemo]) 8).mpr rfl
  have a4 := (c111_newest_violated plotDemo rfl rfl hw [plotRoundDemo 5] [plotRoundDemo 6, plotRoundDemo 7, plotRoundDemo 8] q1 q2 ht (plotRoundDemo 8) el 0).mpr (by simp [Cfg.scaled, plotRoundDemo])
  have w3 : plotDemo.w = 3 := rfl
  have t1 : plotDemo.tau = 1 := rfl
  rw [w3, t1, mul_one] at a2 a3 a4
  rw [hlen] at a4
  exact ⟨by simpa only [Nat.cast_ofNat] using a2, by simpa only [Nat.cast_ofNat] using a3, by simpa only [Nat.cast_ofNat] using a4⟩

/-! ## C112 -/

/-- the dashboards of an environment: every visualization has time plots -/
def AllDashboards (visuals : List Visual) : Prop := ∀ v ∈ visuals, v ≠ none

/-- the state plots of all dashboards, in order -/
def statePlots (visuals : List Visual) : List String := visuals.flatMap fun v => (v.getD []).filterMap id

theorem collect_ok (referenced : List String) (visuals : List Visual) (h : AllDashboards visuals) :
    collect true referenced visuals = .ok ((statePlots visuals).filter (· ∈ referenced)) := by
  induction visuals with
  | nil => rfl
  | cons v vs ih =>
    obtain ⟨plots, rfl⟩ := Option.ne_none_iff_exists'.mp (h v (by simp))
    simp only [collect, if_true, ih fun v hv => h v (by simp [hv])]
    simp [statePlots]

theorem collect_err (referenced : List String) (visuals : List Visual) (h : none ∈ visuals) :
    ∃ e, collect true referenced visuals = .error e := by
  induction visuals with
  | nil => simp at h
  | cons v vs ih =>
    cases v with
    | none => exact ⟨_, by simp only [collect, if_true]; rfl⟩
    | some plots =>
      obtain ⟨e, he⟩ := ih (by simpa using h)
      exact ⟨e, by simp only [collect, if_true, he]⟩

/-- the class attribute after a list of calls of `make` -/
def afterMakes (s : Shared) (l : List (List Visual × List String × MakeOptions)) : Shared :=
  l.foldl (fun s a => (make a.1 a.2.1 a.2.2 s).1) s

/-- C112 where it holds.  With dashboards only, `make` succeeds; as long as no other controller is made, the controller writes to
exactly the plots of the states its stages reference if it was made with `should_plot`, and to none otherwise. -/
theorem c112_partial (visuals : List Visual) (referenced : List String) (o : MakeOptions) (s : Shared) (h : AllDashboards visuals) :
    ∃ c, (make visuals referenced o s).2 = .ok c ∧
      c.plotted (make visuals referenced o s).1
        = .ok (if o.shouldPlot then (statePlots visuals).filter (· ∈ referenced) else []) := by
  refine ⟨⟨(statePlots visuals).filter (· ∈ referenced)⟩, ?_, rfl⟩
  simp only [make, collect_ok referenced visuals h]

/-- C112 is violated by every later `make`: it decides for all controllers whether they plot, for whichever environment it is called and
whether it succeeds or raises. -/
theorem c112_other_violated (visuals : List Visual) (referenced : List String) (o : MakeOptions) (s : Shared)
    (h : AllDashboards visuals) (l : List (List Visual × List String × MakeOptions)) (a : List Visual × List String × MakeOptions) :
    ∃ c, (make visuals referenced o s).2 = .ok c ∧
      c.plotted (afterMakes (make visuals referenced o s).1 (l ++ [a]))
        = .ok (if a.2.2.shouldPlot then (statePlots visuals).filter (· ∈ referenced) else []) := by
  refine ⟨⟨(statePlots visuals).filter (· ∈ referenced)⟩, ?_, ?_⟩
  · simp only [make, collect_ok referenced visuals h]
  · simp [afterMakes, make, Made.plotted]

/-- C112 is violated by `plot_references`: the option has no effect on anything. -/
theorem c112_plot_references_violated (visuals : List Visual) (referenced : List String) (o : MakeOptions) (s : Shared) :
    make visuals referenced { o with plotReferences := false } s = make visuals referenced { o with plotReferences := true } s := rfl

/-- C112 is violated by an environment with a visualization that is no dashboard, such as `ConsolePrinter`: no controller can be made
for it, with whatever options. -/
theorem c112_console_violated (visuals : List Visual) (referenced : List String) (o : MakeOptions) (s : Shared) (h : none ∈ visuals) :
    ∃ e, (make visuals referenced o s).2 = .error e := by
  obtain ⟨e, he⟩ := collect_err referenced visuals h
  exact ⟨e, by simp only [make, he]⟩

/-- C112 is violated by controllers made with `should_plot = False`, the default: a plot of a state their stages reference becomes a
referenced plot (`c.referenced`, reference_plotter.py 33–34) and shows a reference line of zeros, although the generator does not
reference the state and the stages set other values. -/
theorem c112_zero_line_violated (c : Cfg K) (hk : c.kind = .state) (hr : c.referenced = true) (hw : 0 < c.w)
    (hh : c.high = 1) (ops1 ops2 : List (PlotOp K)) (h1 : ∀ o ∈ ops1, o ≠ .clear ∧ o ≠ .init) (h2 : ∀ o ∈ ops2, o ≠ .clear)
    (hz : ∀ v ∈ stepsOf (ops1 ++ ops2), v.ref = 0) (hn : stepsOf (ops1 ++ ops2) ≠ []) :
    let q := (ops1 ++ PlotOp.init :: ops2 ++ [PlotOp.draw]).foldl (doOp c) (Plot.new c)
    shownPoints c.w q 1 ≠ ∅ ∧ ∀ z ∈ shownPoints c.w q 1, z.2 = 0 := by
  intro q
  have hs := (c90_points c hw (fun _ => hh) (Plot.new c) (fresh_new c) (.inl hk) ops1 ops2 h1 h2
    (fun h => by rw [hk] at h; cases h)).2 hk hr
  rw [hs]
  set steps := stepsOf (ops1 ++ ops2)
  have hpos : 0 < steps.length := List.length_pos_of_ne_nil hn
  constructor
  · refine Set.nonempty_iff_ne_empty.mp ⟨_, steps.length - 1, by omega, by omega, rfl⟩
  · rintro z ⟨m, hm, -, rfl⟩
    simp only [pts, List.getElem?_eq_getElem hm]
    rw [hz _ (List.getElem_mem hm), zero_mul]

/-- two dashboards and a cascade: the current is plotted -/
example : ∃ c, (make [some [some "omega", none, some "i"]] ["i", "torque"] { shouldPlot := true } none).2 = .ok c ∧
    c.plotted (some true) = .ok ["i"] ∧ c.plotted (some false) = .ok [] :=
  ⟨⟨["i"]⟩, rfl, rfl, rfl⟩

end GEM.Props
