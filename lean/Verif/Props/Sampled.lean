import Verif.Props.WellPosed

/-!
# Motions under sampled feedback and the Euler solver (for C107)
-/

set_option linter.unusedSectionVars false

namespace GEM.Props

open GEM GEM.Conv GEM.Motor GEM.Load GEM.Sys GEM.Spec GEM.Solver Set Filter Topology

noncomputable section

section spec

variable {E U : Type*} [NormedAddCommGroup E] [NormedSpace ℝ E]

/-- A stretch of time with constant input. -/
structure Stage (E U : Type*) where
  /-- its length -/
  h : ℝ
  /-- the supply voltage, from the state at the beginning of the stage and the supply voltage before -/
  supply : E → ℝ → ℝ
  /-- the input, from the state at the beginning of the stage and the supply voltage -/
  input : E → ℝ → U
  /-- states at which supply voltage and input do not jump -/
  steady : E → Prop

/-- the length of several stages -/
def span (ps : List (Stage E U)) : ℝ := (ps.map Stage.h).sum

/-- `s` moves through the stages, from the time `T` on and with the supply voltage `z` before. -/
def MovesThrough (F : E → U → E) (s : ℝ → E) : ℝ → ℝ → List (Stage E U) → Prop
  | _, _, [] => True
  | T, z, p :: ps => (∀ t ∈ Ico T (T + p.h), HasDerivWithinAt s (F (s t) (p.input (s T) (p.supply (s T) z))) (Ici t) t) ∧
      MovesThrough F s (T + p.h) (p.supply (s T) z) ps

/-- the supply voltage after the stages -/
def voltage (s : ℝ → E) : ℝ → ℝ → List (Stage E U) → ℝ
  | _, z, [] => z
  | T, z, p :: ps => voltage s (T + p.h) (p.supply (s T) z) ps

/-- All stages begin in states at which nothing jumps. -/
def Passes (s : ℝ → E) : ℝ → List (Stage E U) → Prop
  | _, [] => True
  | T, p :: ps => p.steady (s T) ∧ Passes s (T + p.h) ps

/-- A motion under sampled feedback: the `k`-th step of length `d` consists of the stages `plan k`; `z k` is the supply voltage
before it. -/
structure SampledMotion (F : E → U → E) (plan : ℕ → List (Stage E U)) (d : ℝ) (s : ℝ → E) (z : ℕ → ℝ) : Prop where
  cont : ContinuousOn s (Ici 0)
  moves : ∀ k : ℕ, MovesThrough F s (k * d) (z k) (plan k)
  supply : ∀ k : ℕ, z (k + 1) = voltage s (k * d) (z k) (plan k)

end spec

/-- `run e n` is the state of the solver after `n` steps of an episode `e`.  There is exactly one motion under the sampled
feedback.  As long as the stages of this motion begin in states at which nothing jumps, the simulated state differs from it at the
end of every step by at most a constant through the number of sub-steps. -/
def Approaches {k : ℕ} {U : Type} (F : (Fin k → ℝ) → U → Fin k → ℝ) (plan : ℕ → List (Stage (Fin k → ℝ) U))
    (d : ℝ) (x0 : Fin k → ℝ) (z0 : ℝ) {S : Type} (nsteps : S → ℕ) (run : S → ℕ → Fin k → ℝ) : Prop :=
  ∃ (s : ℝ → Fin k → ℝ) (z : ℕ → ℝ), s 0 = x0 ∧ z 0 = z0 ∧ SampledMotion F plan d s z ∧
    (∀ s' z', s' 0 = x0 → z' 0 = z0 → SampledMotion F plan d s' z' → (∀ t, 0 ≤ t → s' t = s t) ∧ z' = z) ∧
    ∀ n : ℕ, (∀ k < n, Passes s (k * d) (plan k)) → ∃ C : ℝ, ∀ e : S, 1 ≤ nsteps e → ∀ i, |run e n i - s (n * d) i| ≤ C / nsteps e

variable {E G : Type*} [NormedAddCommGroup E] [NormedSpace ℝ E] [NormedAddCommGroup G] [NormedSpace ℝ G]

/-! ## Functions that do not jump -/

/-- Near `x` the function changes at most proportionally to the distance from `x`. -/
def LipAt (g : E → G) (x : E) : Prop := (fun y => g y - g x) =O[𝓝 x] fun y => y - x

theorem LipBdd.lipAt {g : E → G} (h : LipBdd g) (x : E) : LipAt g x := by
  obtain ⟨L, hL, hl⟩ := h (‖x‖ + 1)
  refine Asymptotics.IsBigO.of_bound L ?_
  filter_upwards [Metric.ball_mem_nhds x one_pos] with y hy
  rw [Metric.mem_ball, dist_eq_norm] at hy
  refine hl y x ?_ (by linarith)
  have := norm_le_insert' y x
  linarith

theorem LipAt.congr {f g : E → G} {x : E} (h : LipAt f x) (hfg : f =ᶠ[𝓝 x] g) : LipAt g x := by
  unfold LipAt at h ⊢
  refine h.congr' ?_ EventuallyEq.rfl
  filter_upwards [hfg] with y hy
  rw [hy, hfg.self_of_nhds]

theorem LipAt.of_differentiableAt {f : E → G} {x : E} (h : DifferentiableAt ℝ f x) : LipAt f x := h.hasFDerivAt.isBigO_sub

theorem LipAt.tendsto {f : E → G} {x : E} (hf : LipAt f x) : Tendsto f (𝓝 x) (𝓝 (f x)) := by
  have h0 : Tendsto (fun y => f y - f x) (𝓝 x) (𝓝 0) := hf.trans_tendsto (by
    have : Tendsto (fun y : E => y - x) (𝓝 x) (𝓝 (x - x)) := tendsto_id.sub_const x
    simpa using this)
  simpa using h0.add_const (f x)

/-- functions of functions -/
theorem LipAt.comp {H : Type*} [NormedAddCommGroup H] [NormedSpace ℝ H] {φ : G → H} {f : E → G} {x : E} (h : LipAt φ (f x))
    (hf : LipAt f x) : LipAt (fun y => φ (f y)) x := (h.comp_tendsto hf.tendsto).trans hf

theorem LipBdd.comp_lipAt {H : Type*} [NormedAddCommGroup H] [NormedSpace ℝ H] {φ : G → H} (h : LipBdd φ) {f : E → G} {x : E}
    (hf : LipAt f x) : LipAt (fun y => φ (f y)) x := (h.lipAt (f x)).comp hf

theorem LipAt.prodMk {H : Type*} [NormedAddCommGroup H] [NormedSpace ℝ H] {f : E → G} {g : E → H} {x : E} (hf : LipAt f x)
    (hg : LipAt g x) : LipAt (fun y => (f y, g y)) x := by
  have h := Asymptotics.IsBigO.prod_left hf hg
  exact h

theorem lipAt_fst (p : E × G) : LipAt Prod.fst p := by
  refine Asymptotics.IsBigO.of_bound 1 (Eventually.of_forall fun y => ?_)
  rw [one_mul]
  exact norm_fst_le (y - p)

theorem lipAt_snd (p : E × G) : LipAt Prod.snd p := by
  refine Asymptotics.IsBigO.of_bound 1 (Eventually.of_forall fun y => ?_)
  rw [one_mul]
  exact norm_snd_le (y - p)

/-! ## The Euler solver -/

/-- the Euler solver and the supply voltage through several stages -/
def stagesEuler (F : E → G → E) : Euler ℝ E → ℝ → List (Stage E G) → Euler ℝ E × ℝ
  | e, w, [] => (e, w)
  | e, w, p :: ps =>
    stagesEuler F (e.integrate (fun _ x => F x (p.input e.y (p.supply e.y w))) (e.t + p.h)).1 (p.supply e.y w) ps

/-- and through several steps -/
def sampledEuler (F : E → G → E) (plan : ℕ → List (Stage E G)) (e : Euler ℝ E) (w : ℝ) : ℕ → Euler ℝ E × ℝ
  | 0 => (e, w)
  | k + 1 => stagesEuler F (sampledEuler F plan e w k).1 (sampledEuler F plan e w k).2 (plan k)

theorem integrate_time (f : E → E) (e : Euler ℝ E) (he : 1 ≤ e.nsteps) (t : ℝ) :
    (e.integrate (fun _ x => f x) t).1.t = t ∧ (e.integrate (fun _ x => f x) t).1.nsteps = e.nsteps := by
  obtain ⟨y, hy⟩ := c24_time (fun _ x => f x) e t he
  rw [hy]
  exact ⟨rfl, rfl⟩

theorem stagesEuler_time (F : E → G → E) (ps : List (Stage E G)) : ∀ (e : Euler ℝ E) (w : ℝ), 1 ≤ e.nsteps →
    (stagesEuler F e w ps).1.t = e.t + span ps ∧ (stagesEuler F e w ps).1.nsteps = e.nsteps := by
  induction ps with
  | nil => intro e w _; simp [stagesEuler, span]
  | cons p ps ih =>
    intro e w he
    obtain ⟨h1, h2⟩ := integrate_time (fun x => F x (p.input e.y (p.supply e.y w))) e he (e.t + p.h)
    obtain ⟨h3, h4⟩ := ih _ (p.supply e.y w) (by rw [h2]; exact he)
    simp only [stagesEuler]
    rw [h3, h4, h1, h2]
    refine ⟨?_, rfl⟩
    simp [span]
    ring

theorem sampledEuler_time (F : E → G → E) {plan : ℕ → List (Stage E G)} {d : ℝ} (hp : ∀ k, span (plan k) = d) (e : Euler ℝ E) (w : ℝ)
    (he : 1 ≤ e.nsteps) (k : ℕ) :
    (sampledEuler F plan e w k).1.t = e.t + k * d ∧ (sampledEuler F plan e w k).1.nsteps = e.nsteps := by
  induction k with
  | zero => simp [sampledEuler]
  | succ k ih =>
    obtain ⟨h1, h2⟩ := stagesEuler_time F (plan k) (sampledEuler F plan e w k).1 (sampledEuler F plan e w k).2 (by rw [ih.2]; exact he)
    simp only [sampledEuler]
    rw [h1, h2, ih.1, ih.2, hp]
    refine ⟨?_, rfl⟩
    push_cast
    ring

/-- constant inputs as part of the state -/
theorem eulerIter_pair (F : E → G → E) (u : G) (h : ℝ) (n : ℕ) : ∀ (t : ℝ) (x : E),
    eulerIter (fun (_ : ℝ) (p : E × G) => (F p.1 p.2, (0 : G))) h n t (x, u) = (eulerIter (fun _ x => F x u) h n t x, u) := by
  induction n with
  | zero => intro t x; rfl
  | succ n ih =>
    intro t x
    rw [eulerIter, eulerIter]
    have e : (x, u) + h • ((F (x, u).1 (x, u).2, (0 : G)) : E × G) = (x + h • F x u, u) := by
      ext <;> simp
    rw [e, ih]

theorem LipBdd.prod_zero {H : E × G → E} (h : LipBdd H) : LipBdd fun p : E × G => (H p, (0 : G)) := by
  intro R
  obtain ⟨L, hL, hl⟩ := h R
  refine ⟨L, hL, fun x y hx hy => ?_⟩
  have e : (H x, (0 : G)) - (H y, (0 : G)) = (H x - H y, 0) := by ext <;> simp
  rw [e, Prod.norm_mk, norm_zero, max_eq_left (norm_nonneg _)]
  exact hl x y hx hy

/-- a stage at whose beginning nothing jumps -/
structure SmoothAt (p : Stage E G) (x : E) (z : ℝ) : Prop where
  supply : LipAt (fun q : E × ℝ => p.supply q.1 q.2) (x, z)
  input : LipAt (fun q : E × ℝ => p.input q.1 q.2) (x, p.supply x z)

/-- the error of one stage, for sufficiently many sub-steps -/
theorem stage_converges {F : E → G → E} (hF : LipBdd fun p : E × G => F p.1 p.2) {p : Stage E G} (hh : 0 ≤ p.h) {s : ℝ → E} {T z : ℝ}
    (hc : ContinuousOn s (Icc T (T + p.h)))
    (hd : ∀ t ∈ Ico T (T + p.h), HasDerivWithinAt s (F (s t) (p.input (s T) (p.supply (s T) z))) (Ici t) t)
    (hp : SmoothAt p (s T) z) (C0 : ℝ) (hC0 : 0 ≤ C0) :
    ∃ (C : ℝ) (N : ℕ), 0 ≤ C ∧ ∀ (e : Euler ℝ E) (w : ℝ), e.t = T → 1 ≤ e.nsteps → N ≤ e.nsteps → ‖e.y - s T‖ ≤ C0 / e.nsteps →
      ‖w - z‖ ≤ C0 / e.nsteps →
      ‖(e.integrate (fun _ x => F x (p.input e.y (p.supply e.y w))) (e.t + p.h)).1.y - s (T + p.h)‖ ≤ C / e.nsteps ∧
      ‖p.supply e.y w - p.supply (s T) z‖ ≤ C / e.nsteps := by
  have hcomp : LipAt (fun q : E × ℝ => p.input q.1 (p.supply q.1 q.2)) (s T, z) :=
    hp.input.comp (f := fun q : E × ℝ => (q.1, p.supply q.1 q.2)) ((lipAt_fst (s T, z)).prodMk hp.supply)
  obtain ⟨L1, hL1, h1⟩ := hp.supply.exists_nonneg
  obtain ⟨L2, hL2, h2⟩ := hcomp.exists_nonneg
  obtain ⟨r, hr, hball⟩ := Metric.eventually_nhds_iff_ball.1 (h1.bound.and h2.bound)
  set u0 := p.input (s T) (p.supply (s T) z) with hu0
  obtain ⟨C, hC, hconv⟩ := euler_converges (E := E × G) (F := fun p => (F p.1 p.2, (0 : G))) hF.prod_zero
    (y := fun t => (s t, u0)) (t0 := T) (t1 := T + p.h) (by linarith) (hc.prodMk continuousOn_const)
    (fun t ht => (hd t ht).prodMk (hasDerivWithinAt_const t (Ici t) u0))
    (max C0 (L2 * C0)) (hC0.trans (le_max_left _ _))
  obtain ⟨M, hM⟩ := exists_nat_gt (C0 / r)
  refine ⟨max C (L1 * C0), M, hC.trans (le_max_left _ _), fun e w ht hn hN hy hw => ?_⟩
  have hn1 : (1 : ℝ) ≤ e.nsteps := by exact_mod_cast hn
  have hn0 : (0 : ℝ) < e.nsteps := by linarith
  have hMe : (M : ℝ) ≤ e.nsteps := by exact_mod_cast hN
  have hyw : ‖((e.y, w) : E × ℝ) - (s T, z)‖ ≤ C0 / e.nsteps := by
    rw [Prod.mk_sub_mk, Prod.norm_mk]
    exact max_le hy hw
  have hnear : ((e.y, w) : E × ℝ) ∈ Metric.ball (s T, z) r := by
    rw [Metric.mem_ball, dist_eq_norm]
    refine hyw.trans_lt ?_
    rw [div_lt_iff₀ hn0]
    rw [div_lt_iff₀ hr] at hM
    nlinarith
  obtain ⟨b1, b2⟩ := hball _ hnear
  have hup : ‖p.supply e.y w - p.supply (s T) z‖ ≤ L1 * C0 / e.nsteps := by
    refine b1.trans ?_
    rw [mul_div_assoc]
    exact mul_le_mul_of_nonneg_left hyw hL1
  have hin : ‖p.input e.y (p.supply e.y w) - u0‖ ≤ L2 * C0 / e.nsteps := by
    refine b2.trans ?_
    rw [mul_div_assoc]
    exact mul_le_mul_of_nonneg_left hyw hL2
  refine ⟨?_, hup.trans (div_le_div_of_nonneg_right (le_max_right _ _) hn0.le)⟩
  set v := p.input e.y (p.supply e.y w) with hv
  obtain ⟨q, hq, hqb⟩ := hconv ⟨T, (e.y, v), e.nsteps⟩ rfl hn (by
    simp only
    rw [Prod.mk_sub_mk, Prod.norm_mk]
    refine max_le (hy.trans ?_) (hin.trans ?_)
    · exact div_le_div_of_nonneg_right (le_max_left _ _) hn0.le
    · exact div_le_div_of_nonneg_right (le_max_right _ _) hn0.le)
  rw [c24_autonomous_partial (fun p : E × G => (F p.1 p.2, (0 : G))) ⟨T, (e.y, v), e.nsteps⟩ _ hn] at hq
  simp only at hq
  rw [eulerIter_pair] at hq
  have hq' := Except.ok.inj hq
  have hstep : (e.integrate (fun _ x => F x v) (e.t + p.h)).1.y = q.1 := by
    obtain ⟨y, hy⟩ := c24_time (fun _ x => F x v) e (e.t + p.h) hn
    have h2 := c24_autonomous_partial (fun x => F x v) e (e.t + p.h) hn
    rw [hy] at h2
    have h3 := Except.ok.inj h2
    rw [hy]
    simp only [h3, ← hq', ht]
  rw [hstep]
  refine le_trans ?_ (hqb.trans (div_le_div_of_nonneg_right (le_max_left _ _) hn0.le))
  exact norm_fst_le (q - (s (T + p.h), u0))

/-- all stages begin smoothly -/
def Smooth (s : ℝ → E) : ℝ → ℝ → List (Stage E G) → Prop
  | _, _, [] => True
  | T, z, p :: ps => SmoothAt p (s T) z ∧ Smooth s (T + p.h) (p.supply (s T) z) ps

theorem stages_converge {F : E → G → E} (hF : LipBdd fun p : E × G => F p.1 p.2) {s : ℝ → E} (hc : ContinuousOn s (Ici 0))
    (ps : List (Stage E G)) (hh : ∀ p ∈ ps, 0 ≤ p.h) : ∀ {T z : ℝ}, 0 ≤ T → MovesThrough F s T z ps → Smooth s T z ps →
    ∀ C0, 0 ≤ C0 → ∃ (C : ℝ) (N : ℕ), 0 ≤ C ∧ ∀ (e : Euler ℝ E) (w : ℝ), e.t = T → 1 ≤ e.nsteps → N ≤ e.nsteps →
      ‖e.y - s T‖ ≤ C0 / e.nsteps → ‖w - z‖ ≤ C0 / e.nsteps →
      ‖(stagesEuler F e w ps).1.y - s (T + span ps)‖ ≤ C / e.nsteps ∧
      ‖(stagesEuler F e w ps).2 - voltage s T z ps‖ ≤ C / e.nsteps := by
  induction ps with
  | nil =>
    intro T z _ _ _ C0 hC0
    exact ⟨C0, 0, hC0, fun e w _ _ _ h1 h2 => by simpa [stagesEuler, voltage, span] using ⟨h1, h2⟩⟩
  | cons p ps ih =>
    intro T z hT hf hs C0 hC0
    have hp := hh p (by simp)
    obtain ⟨C1, N1, hC1, h1⟩ := stage_converges hF hp (hc.mono fun t ht => hT.trans ht.1) hf.1 hs.1 C0 hC0
    obtain ⟨C2, N2, hC2, h2⟩ := ih (fun q hq => hh q (by simp [hq])) (by linarith) hf.2 hs.2 C1 hC1
    refine ⟨C2, max N1 N2, hC2, fun e w ht hn hN hy hw => ?_⟩
    obtain ⟨a1, a2⟩ := h1 e w ht hn ((le_max_left _ _).trans hN) hy hw
    obtain ⟨b1, b2⟩ := integrate_time (fun x => F x (p.input e.y (p.supply e.y w))) e hn (e.t + p.h)
    obtain ⟨c1, c2⟩ := h2 (e.integrate (fun _ x => F x (p.input e.y (p.supply e.y w))) (e.t + p.h)).1 (p.supply e.y w)
      (by rw [b1, ht]) (by rw [b2]; exact hn) (by rw [b2]; exact (le_max_right _ _).trans hN) (by rw [b2]; exact a1) (by rw [b2]; exact a2)
    rw [b2] at c1 c2
    refine ⟨?_, c2⟩
    have e1 : T + span (p :: ps) = T + p.h + span ps := by simp [span]; ring
    rw [e1]
    exact c1

/-- The error at the end of a step is at most a constant through the number of sub-steps, if nothing jumps at the
states in which the earlier stages began. -/
theorem sampled_converges {F : E → G → E} (hF : LipBdd fun p : E × G => F p.1 p.2) {plan : ℕ → List (Stage E G)}
    (hh : ∀ k, ∀ p ∈ plan k, 0 ≤ p.h) {d : ℝ} (hd : 0 < d) (hsp : ∀ k, span (plan k) = d) {s : ℝ → E} {z : ℕ → ℝ}
    (hs : SampledMotion F plan d s z) (n : ℕ) (hg : ∀ k : ℕ, k < n → Smooth s (k * d) (z k) (plan k)) :
    ∃ C : ℝ, 0 ≤ C ∧ ∀ e : Euler ℝ E, e.t = 0 → e.y = s 0 → 1 ≤ e.nsteps →
      ‖(sampledEuler F plan e (z 0) n).1.y - s (n * d)‖ ≤ C / e.nsteps := by
  -- first for sufficiently many sub-steps
  have key : ∃ (C : ℝ) (N : ℕ), 0 ≤ C ∧ ∀ e : Euler ℝ E, e.t = 0 → e.y = s 0 → 1 ≤ e.nsteps → N ≤ e.nsteps →
      ‖(sampledEuler F plan e (z 0) n).1.y - s (n * d)‖ ≤ C / e.nsteps ∧ ‖(sampledEuler F plan e (z 0) n).2 - z n‖ ≤ C / e.nsteps := by
    induction n with
    | zero => exact ⟨0, 0, le_rfl, fun e _ h _ _ => by simp [sampledEuler, h]⟩
    | succ k ih =>
      obtain ⟨C0, N0, hC0, ih⟩ := ih fun j hj => hg j (by omega)
      have hk : (0 : ℝ) ≤ k * d := by positivity
      obtain ⟨C, N, hC, h1⟩ := stages_converge hF hs.cont (plan k) (hh k) hk (hs.moves k) (hg k (by omega)) C0 hC0
      refine ⟨C, max N0 N, hC, fun e ht hy hn hN => ?_⟩
      obtain ⟨st, sn⟩ := sampledEuler_time F hsp e (z 0) hn k
      obtain ⟨i1, i2⟩ := ih e ht hy hn ((le_max_left _ _).trans hN)
      obtain ⟨a1, a2⟩ := h1 (sampledEuler F plan e (z 0) k).1 (sampledEuler F plan e (z 0) k).2 (by rw [st, ht]; ring)
        (by rw [sn]; exact hn) (by rw [sn]; exact (le_max_right _ _).trans hN) (by rw [sn]; exact i1) (by rw [sn]; exact i2)
      rw [sn] at a1 a2
      rw [hsp] at a1
      rw [← hs.supply] at a2
      refine ⟨?_, a2⟩
      have e1 : ((k + 1 : ℕ) : ℝ) * d = k * d + d := by push_cast; ring
      rw [e1]
      exact a1
  -- for each of the other numbers of sub-steps there is only one result
  obtain ⟨C, N, hC, key⟩ := key
  let err : ℕ → ℝ := fun m => m * ‖(sampledEuler F plan ⟨0, s 0, m⟩ (z 0) n).1.y - s (n * d)‖
  have herr : ∀ m, 0 ≤ err m := fun m => by positivity
  have hsum : 0 ≤ ∑ m ∈ Finset.range N, err m := Finset.sum_nonneg fun m _ => herr m
  refine ⟨C + ∑ m ∈ Finset.range N, err m, by linarith, fun e ht hy hn => ?_⟩
  have hn0 : (0 : ℝ) < e.nsteps := by exact_mod_cast hn
  rcases le_or_gt N e.nsteps with h | h
  · refine (key e ht hy hn h).1.trans ?_
    apply div_le_div_of_nonneg_right _ hn0.le
    linarith
  · rw [le_div_iff₀ hn0]
    have h1 := Finset.single_le_sum (f := err) (fun m _ => herr m) (Finset.mem_range.2 h)
    have e1 : e = ⟨0, s 0, e.nsteps⟩ := by
      cases e
      simp only at ht hy
      simp [ht, hy]
    have h2 : ‖(sampledEuler F plan e (z 0) n).1.y - s (n * d)‖ * e.nsteps = err e.nsteps := by
      simp only [err]
      rw [mul_comm, ← e1]
    rw [h2]
    linarith

/-! ## Existence and uniqueness -/

theorem floor_interval {d : ℝ} (hd : 0 < d) (n : ℕ) (t : ℝ) (h1 : n * d ≤ t) (h2 : t < (n + 1) * d) : ⌊t / d⌋₊ = n := by
  have h3 : (n : ℝ) ≤ t / d := by rw [le_div_iff₀ hd]; exact h1
  have h4 : t / d < n + 1 := by rw [div_lt_iff₀ hd]; exact h2
  exact (Nat.floor_eq_iff (le_trans (Nat.cast_nonneg n) h3)).2 ⟨h3, h4⟩

section motion

variable {U : Type*}

theorem span_nonneg {ps : List (Stage E U)} (hh : ∀ p ∈ ps, 0 ≤ p.h) : 0 ≤ span ps := by
  apply List.sum_nonneg
  intro x hx
  obtain ⟨p, hp, rfl⟩ := List.mem_map.1 hx
  exact hh p hp

theorem span_cons (p : Stage E U) (ps : List (Stage E U)) : span (p :: ps) = p.h + span ps := by simp [span]

/-- only the values during the stages count -/
theorem follows_congr {F : E → U → E} {s s' : ℝ → E} (ps : List (Stage E U)) (hh : ∀ p ∈ ps, 0 ≤ p.h) : ∀ {T z : ℝ},
    (∀ t ∈ Icc T (T + span ps), s t = s' t) → MovesThrough F s T z ps → MovesThrough F s' T z ps := by
  induction ps with
  | nil => intro T z _ _; trivial
  | cons p ps ih =>
    intro T z he hf
    have hp := hh p (by simp)
    have hs := span_nonneg (ps := ps) fun q hq => hh q (by simp [hq])
    rw [span_cons] at he
    have e0 : s T = s' T := he T ⟨le_rfl, by linarith⟩
    refine ⟨fun t ht => ?_, ?_⟩
    · have h1 := hf.1 t ht
      have et := he t ⟨ht.1, by linarith [ht.2]⟩
      rw [e0, et] at h1
      refine h1.congr_of_eventuallyEq ?_ et.symm
      have h4 : Icc t (T + p.h) ∈ 𝓝[Ici t] t := Icc_mem_nhdsGE ht.2
      filter_upwards [h4] with r hr
      exact (he r ⟨ht.1.trans hr.1, by linarith [hr.2]⟩).symm
    · rw [← e0]
      exact ih (fun q hq => hh q (by simp [hq])) (fun t ht => he t ⟨by linarith [ht.1], by linarith [ht.2]⟩) hf.2

theorem voltage_congr {s s' : ℝ → E} (ps : List (Stage E U)) (hh : ∀ p ∈ ps, 0 ≤ p.h) : ∀ {T z : ℝ},
    (∀ t ∈ Icc T (T + span ps), s t = s' t) → voltage s T z ps = voltage s' T z ps := by
  induction ps with
  | nil => intro T z _; rfl
  | cons p ps ih =>
    intro T z he
    have hp := hh p (by simp)
    have hs := span_nonneg (ps := ps) fun q hq => hh q (by simp [hq])
    rw [span_cons] at he
    have e0 : s T = s' T := he T ⟨le_rfl, by linarith⟩
    simp only [voltage]
    rw [← e0]
    exact ih (fun q hq => hh q (by simp [hq])) (fun t ht => he t ⟨by linarith [ht.1], by linarith [ht.2]⟩)

/-- a later beginning -/
theorem follows_shift {F : E → U → E} {s : ℝ → E} (c : ℝ) (ps : List (Stage E U)) : ∀ {T z : ℝ},
    MovesThrough F s T z ps → MovesThrough F (fun t => s (t - c)) (T + c) z ps := by
  induction ps with
  | nil => intro T z _; trivial
  | cons p ps ih =>
    intro T z hf
    have e0 : s (T + c - c) = s T := by rw [add_sub_cancel_right]
    refine ⟨fun t ht => ?_, ?_⟩
    · have h1 := hf.1 (t - c) ⟨by linarith [ht.1], by linarith [ht.2]⟩
      have h3 := h1.scomp t (((hasDerivAt_id t).sub_const c).hasDerivWithinAt (s := Ici t)) (fun r hr => by
        have : t ≤ r := hr
        simp only [mem_Ici, id]
        linarith)
      rw [one_smul] at h3
      simp only [e0]
      exact h3
    · simp only [e0]
      have e1 : T + c + p.h = T + p.h + c := by ring
      rw [e1]
      exact ih hf.2

theorem voltage_shift {s : ℝ → E} (c : ℝ) (ps : List (Stage E U)) : ∀ {T z : ℝ},
    voltage (fun t => s (t - c)) (T + c) z ps = voltage s T z ps := by
  induction ps with
  | nil => intro T z; rfl
  | cons p ps ih =>
    intro T z
    have e0 : s (T + c - c) = s T := by rw [add_sub_cancel_right]
    have e1 : T + c + p.h = T + p.h + c := by ring
    simp only [voltage, e0, e1]
    exact ih

/-- the motion through the stages of one step -/
theorem stages_motion {F : E → U → E}
    (hone : ∀ u x0, ∃ x : ℝ → E, x 0 = x0 ∧ ∀ t, 0 ≤ t → HasDerivWithinAt x (F (x t) u) (Ici 0) t)
    (ps : List (Stage E U)) (hh : ∀ p ∈ ps, 0 ≤ p.h) : ∀ (x : E) (z : ℝ),
    ∃ σ : ℝ → E, σ 0 = x ∧ ContinuousOn σ (Ici 0) ∧ MovesThrough F σ 0 z ps := by
  induction ps with
  | nil => exact fun x z => ⟨fun _ => x, rfl, continuousOn_const, trivial⟩
  | cons p ps ih =>
    intro x z
    have hp := hh p (by simp)
    obtain ⟨φ, h0, hφ⟩ := hone (p.input x (p.supply x z)) x
    have hφc : ContinuousOn φ (Ici 0) := fun t ht => (hφ t ht).continuousWithinAt
    obtain ⟨ψ, g0, gc, hψ⟩ := ih (fun q hq => hh q (by simp [hq])) (φ p.h) (p.supply x z)
    let σ : ℝ → E := fun t => if t ≤ p.h then φ t else ψ (t - p.h)
    have s1 : ∀ t, t ≤ p.h → σ t = φ t := fun t ht => if_pos ht
    have s2 : ∀ t, p.h ≤ t → σ t = ψ (t - p.h) := fun t ht => by
      rcases ht.eq_or_lt with h | h
      · simp only [σ]
        rw [if_pos h.ge, ← h, sub_self, g0]
      · exact if_neg (not_le.2 h)
    have e0 : σ 0 = x := by rw [s1 0 hp, h0]
    refine ⟨σ, e0, ?_, ?_, ?_⟩
    · have c1 : ContinuousOn σ (Icc 0 p.h) := (hφc.mono fun t ht => ht.1).congr fun t ht => s1 t ht.2
      have c2 : ContinuousOn σ (Ici p.h) := by
        have : ContinuousOn (fun t => ψ (t - p.h)) (Ici p.h) := gc.comp (by fun_prop) fun t ht => by
          have : p.h ≤ t := ht
          simp only [mem_Ici]
          linarith
        exact this.congr fun t ht => s2 t ht
      have c3 := c1.union_of_isClosed c2 isClosed_Icc isClosed_Ici
      rwa [Icc_union_Ici_eq_Ici hp] at c3
    · intro t ht
      rw [zero_add] at ht
      rw [e0, s1 t ht.2.le]
      refine ((hφ t ht.1).mono (Ici_subset_Ici.2 ht.1)).congr_of_eventuallyEq ?_ (s1 t ht.2.le)
      have h4 : Icc t p.h ∈ 𝓝[Ici t] t := Icc_mem_nhdsGE ht.2
      filter_upwards [h4] with r hr
      exact s1 r hr.2
    · rw [e0]
      refine follows_congr ps (fun q hq => hh q (by simp [hq])) (s := fun t => ψ (t - p.h)) ?_ (follows_shift p.h ps hψ)
      intro t ht
      exact (s2 t (by linarith [ht.1])).symm

end motion

section unique

variable {k : ℕ} {U : Type*} {F : (Fin k → ℝ) → U → Fin k → ℝ}

theorem stages_unique (hlip : ∀ u, LipBdd fun x => F x u) {s s' : ℝ → Fin k → ℝ} (ps : List (Stage (Fin k → ℝ) U))
    (hh : ∀ p ∈ ps, 0 ≤ p.h) : ∀ {T z : ℝ}, ContinuousOn s (Icc T (T + span ps)) → ContinuousOn s' (Icc T (T + span ps)) →
    s T = s' T → MovesThrough F s T z ps → MovesThrough F s' T z ps → EqOn s s' (Icc T (T + span ps)) := by
  induction ps with
  | nil =>
    intro T z _ _ e0 _ _ t ht
    have : t = T := le_antisymm (by simpa [span] using ht.2) ht.1
    rw [this, e0]
  | cons p ps ih =>
    intro T z hc hc' e0 hf hf'
    have hp := hh p (by simp)
    have hs := span_nonneg (ps := ps) fun q hq => hh q (by simp [hq])
    rw [span_cons] at hc hc' ⊢
    have h1 : EqOn s s' (Icc T (T + p.h)) := motion_unique (hlip (p.input (s T) (p.supply (s T) z))) (e := fun _ => 0)
      (hc.mono (Icc_subset_Icc_right (by linarith))) (fun t ht => by simpa using hf.1 t ht)
      (hc'.mono (Icc_subset_Icc_right (by linarith))) (fun t ht => by rw [e0]; simpa using hf'.1 t ht) e0
    have h2 := ih (fun q hq => hh q (by simp [hq])) (T := T + p.h) (z := p.supply (s T) z)
      (hc.mono fun t ht => ⟨by linarith [ht.1], by linarith [ht.2]⟩) (hc'.mono fun t ht => ⟨by linarith [ht.1], by linarith [ht.2]⟩)
      (h1 ⟨by linarith, le_rfl⟩) hf.2 (by rw [e0]; exact hf'.2)
    intro t ht
    rcases le_total t (T + p.h) with h | h
    · exact h1 ⟨ht.1, h⟩
    · exact h2 ⟨h, by linarith [ht.2]⟩

theorem sampled_motion (hlip : ∀ u, LipBdd fun x => F x u)
    (hone : ∀ u x0, ∃ x : ℝ → Fin k → ℝ, x 0 = x0 ∧ ∀ t, 0 ≤ t → HasDerivWithinAt x (F (x t) u) (Ici 0) t)
    {d : ℝ} (hd : 0 < d) {plan : ℕ → List (Stage (Fin k → ℝ) U)} (hh : ∀ k, ∀ p ∈ plan k, 0 ≤ p.h) (hsp : ∀ k, span (plan k) = d)
    (x0 : Fin k → ℝ) (z0 : ℝ) :
    ∃ (s : ℝ → Fin k → ℝ) (z : ℕ → ℝ), s 0 = x0 ∧ z 0 = z0 ∧ SampledMotion F plan d s z ∧
      ∀ s' z', s' 0 = x0 → z' 0 = z0 → SampledMotion F plan d s' z' → (∀ t, 0 ≤ t → s' t = s t) ∧ z' = z := by
  choose σ hσ0 hσc hσ using fun n => stages_motion hone (plan n) (hh n)
  let xz : ℕ → (Fin k → ℝ) × ℝ := fun n =>
    Nat.rec (x0, z0) (fun n q => (σ n q.1 q.2 d, voltage (σ n q.1 q.2) 0 q.2 (plan n))) n
  have hxz : ∀ n, xz (n + 1) = (σ n (xz n).1 (xz n).2 d, voltage (σ n (xz n).1 (xz n).2) 0 (xz n).2 (plan n)) := fun n => rfl
  let τ : ℕ → ℝ → Fin k → ℝ := fun n => σ n (xz n).1 (xz n).2
  let s : ℝ → Fin k → ℝ := fun t => τ ⌊t / d⌋₊ (t - ⌊t / d⌋₊ * d)
  have piece : ∀ (n : ℕ) (t : ℝ), t ∈ Icc (n * d) ((n + 1) * d) → s t = τ n (t - n * d) := by
    intro n t ht
    rcases lt_or_eq_of_le ht.2 with h | h
    · simp only [s, floor_interval hd n t ht.1 h]
    · have h1 : ⌊t / d⌋₊ = n + 1 := by
        apply floor_interval hd
        · push_cast; exact h.ge
        · rw [h]; push_cast; nlinarith
      simp only [s, h1]
      have e1 : t - ((n + 1 : ℕ) : ℝ) * d = 0 := by rw [h]; push_cast; ring
      have e2 : t - (n : ℝ) * d = d := by rw [h]; ring
      rw [e1, e2]
      simp only [τ]
      rw [hσ0, hxz n]
  have pieceC : ∀ n : ℕ, ContinuousOn s (Icc (n * d) ((n + 1) * d)) := by
    intro n
    have h1 : ContinuousOn (fun t => τ n (t - n * d)) (Icc (n * d) ((n + 1) * d)) := by
      refine (hσc n _ _).comp (by fun_prop) fun t ht => ?_
      have := ht.1
      simp only [mem_Ici]
      linarith
    exact h1.congr fun t ht => piece n t ht
  have contN : ∀ n : ℕ, ContinuousOn s (Icc 0 (n * d)) := by
    intro n
    induction n with
    | zero => simp [continuousOn_singleton]
    | succ n ih =>
      have h1 := ih.union_of_isClosed (pieceC n) isClosed_Icc isClosed_Icc
      have eu : Icc 0 ((n : ℝ) * d) ∪ Icc (n * d) ((n + 1) * d) = Icc 0 (((n + 1 : ℕ) : ℝ) * d) := by
        push_cast
        exact Icc_union_Icc_eq_Icc (by positivity) (by nlinarith)
      rw [← eu]
      exact h1
  have beyond : ∀ t : ℝ, ∃ n : ℕ, t < n * d := by
    intro t
    obtain ⟨n, hn⟩ := exists_nat_gt (t / d)
    exact ⟨n, by rwa [div_lt_iff₀ hd] at hn⟩
  have cont : ContinuousOn s (Ici 0) := by
    intro t ht
    obtain ⟨n, hn⟩ := beyond t
    have h1 := contN n t ⟨ht, hn.le⟩
    refine h1.mono_of_mem_nhdsWithin ?_
    have h2 := inter_mem_nhdsWithin (Ici (0 : ℝ)) (Iic_mem_nhds hn)
    exact mem_of_superset h2 fun z hz => ⟨hz.1, hz.2⟩
  have agree : ∀ n : ℕ, ∀ t ∈ Icc ((n : ℝ) * d) (n * d + span (plan n)), τ n (t - n * d) = s t := by
    intro n t ht
    rw [hsp] at ht
    exact (piece n t ⟨ht.1, by linarith [ht.2]⟩).symm
  have hs0 : s 0 = x0 := by
    have := piece 0 0 ⟨by simp, by simp; exact hd.le⟩
    rw [this]
    simp only [CharP.cast_eq_zero, zero_mul, sub_zero, τ]
    exact hσ0 _ _ _
  have hmot : SampledMotion F plan d s (fun n => (xz n).2) := by
    refine ⟨cont, fun n => ?_, fun n => ?_⟩
    · have h1 := follows_shift ((n : ℝ) * d) (plan n) (hσ n (xz n).1 (xz n).2)
      rw [zero_add] at h1
      exact follows_congr (plan n) (hh n) (agree n) h1
    · have h1 := voltage_shift (s := τ n) ((n : ℝ) * d) (plan n) (T := 0) (z := (xz n).2)
      rw [zero_add, voltage_congr (plan n) (hh n) (agree n)] at h1
      rw [hxz n]
      exact h1.symm
  refine ⟨s, fun n => (xz n).2, hs0, rfl, hmot, ?_⟩
  intro s' z' h0' hz0' hs'
  have step : ∀ n : ℕ, (∀ t ∈ Icc (0 : ℝ) (n * d), s' t = s t) ∧ z' n = (xz n).2 := by
    intro n
    induction n with
    | zero =>
      refine ⟨fun t ht => ?_, hz0'⟩
      have : t = 0 := le_antisymm (by simpa using ht.2) ht.1
      rw [this, h0', hs0]
    | succ n ih =>
      have hn0 : (0 : ℝ) ≤ n * d := by positivity
      have hz := ih.2
      have hf' := hs'.moves n
      rw [hz] at hf'
      have h1 := stages_unique hlip (plan n) (hh n) (hs'.cont.mono fun t ht => hn0.trans ht.1)
        (cont.mono fun t ht => hn0.trans ht.1) (ih.1 _ ⟨hn0, le_rfl⟩) hf' (hmot.moves n)
      refine ⟨fun t ht => ?_, ?_⟩
      · rcases le_total t (n * d) with h | h
        · exact ih.1 t ⟨ht.1, h⟩
        · refine h1 ⟨h, ?_⟩
          rw [hsp]
          have := ht.2
          push_cast at this
          linarith
      · rw [hs'.supply n, hz, voltage_congr (plan n) (hh n) h1]
        exact (hmot.supply n).symm
  refine ⟨fun t ht => ?_, funext fun n => (step n).2⟩
  obtain ⟨n, hn⟩ := beyond t
  exact (step n).1 t ⟨ht, hn.le⟩

end unique

theorem approaches {m l : ℕ} {torque : (Fin m → ℝ) → ℝ} {elOde : (Fin m → ℝ) → (Fin l → ℝ) → ℝ → Fin m → ℝ}
    {W loss : (Fin m → ℝ) → ℝ} {P : (Fin m → ℝ) → (Fin l → ℝ) → ℝ} {cur : List (Fin m)} (hs : Sound torque elOde W loss P cur)
    {load : AnyLoad} (hl : load.Ok) (hst : load.Static) {d : ℝ} (hd0 : 0 < d)
    {plan : ℕ → List (Stage (Fin (1 + m) → ℝ) (Fin l → ℝ))} (hh : ∀ k, ∀ p ∈ plan k, 0 ≤ p.h) (hsp : ∀ k, span (plan k) = d)
    (hg : ∀ k, ∀ p ∈ plan k, ∀ x z, p.steady x → SmoothAt p x z)
    (x0 : Fin (1 + m) → ℝ) (z0 : ℝ) {S : Type} (e : S → Euler ℝ (Fin (1 + m) → ℝ)) (he : ∀ s, (e s).t = 0 ∧ (e s).y = x0) :
    Approaches (fun x u => core torque elOde load u x) plan d x0 z0 (fun s => (e s).nsteps)
      (fun s n => (sampledEuler (fun x u => core torque elOde load u x) plan (e s) z0 n).1.y) := by
  have hL := lip_core hs.lip hl
  obtain ⟨s, z, hs0, hz0, hsm, huniq⟩ := sampled_motion (F := fun x u => core torque elOde load u x) (fun u => hL.fix u) (fun u x0 => by
    obtain ⟨x, h0, hx⟩ := drive_const_motion hs hl u 0 x0
    exact ⟨x, h0, fun t ht => by simpa [static_driftOf hst] using hx t ht⟩) hd0 hh hsp x0 z0
  refine ⟨s, z, hs0, hz0, hsm, huniq, fun n hgood => ?_⟩
  have smooth : ∀ (ps : List (Stage (Fin (1 + m) → ℝ) (Fin l → ℝ))), (∀ p ∈ ps, ∀ x z, p.steady x → SmoothAt p x z) →
      ∀ T z, Passes s T ps → Smooth s T z ps := by
    intro ps
    induction ps with
    | nil => intro _ T z _; trivial
    | cons p ps ih =>
      intro hp T z h
      exact ⟨hp p (by simp) _ _ h.1, ih (fun q hq => hp q (by simp [hq])) _ _ h.2⟩
  obtain ⟨C, -, hC⟩ := sampled_converges hL hh hd0 hsp hsm n fun k hk => smooth _ (hg k) _ _ (hgood k hk)
  rw [hz0] at hC
  exact ⟨C, fun σ hn i => (norm_le_pi_norm _ i).trans (hC (e σ) (he σ).1 ((he σ).2.trans hs0.symm) hn)⟩

end

end GEM.Props
