import Verif.Model.Replacement
import Verif.Props.Assembly

/-!
# C121: replacing the reference generator of an environment
-/

set_option linter.unusedSectionVars false

namespace GEM.Props

open GEM GEM.Core GEM.Refs GEM.Reward GEM.Assembly GEM.Constr GEM.Utils

/-- The calls of a user after the replacement. -/
inductive Ask (A : Type) where
  | reset (entropy : ℕ)
  | step (a : A)
  | close

/-- The call, for an environment with modules of type `σ`. -/
def Ask.op {A : Type} (σ : Type) : Ask A → Op σ A
  | .reset n => .reset n
  | .step a => .step a
  | .close => .close

/-- What a caller sees of a history. -/
def seen {σ A : Type} {S O K : Type} (h : List (Op σ A × Out S O K)) : List (Out S O K) := h.map Prod.snd

/-! ## An environment inside another one -/

section inside

variable {σ σ' A S R O : Type}

/-- The modules `C` do with `emb x` what `C'` do with `x`. -/
structure Embeds (C : Comps σ A S R O ℝ) (C' : Comps σ' A S R O ℝ) (emb : σ' → σ) : Prop where
  seed : ∀ n x, C.seed n (emb x) = emb (C'.seed n x)
  psReset : ∀ x, C.psReset (emb x) = (emb (C'.psReset x).1, (C'.psReset x).2)
  refReset : ∀ x s, C.refReset (emb x) s = (emb (C'.refReset x s).1, (C'.refReset x s).2)
  rewReset : ∀ x s r, C.rewReset (emb x) s r = emb (C'.rewReset x s r)
  psK : ∀ x, C.psK (emb x) = C'.psK x
  simulate : ∀ x a, C.simulate (emb x) a = (emb (C'.simulate x a).1, (C'.simulate x a).2)
  getRef : ∀ x s, C.getRef (emb x) s = (emb (C'.getRef x s).1, (C'.getRef x s).2)
  check : ∀ x s, C.check (emb x) s = (emb (C'.check x s).1, (C'.check x s).2)
  reward : ∀ x s r k a d, C.reward (emb x) s r k a d = (emb (C'.reward x s r k a d).1, (C'.reward x s r k a d).2)
  refObs : ∀ x s, C.refObs (emb x) s = (emb (C'.refObs x s).1, (C'.refObs x s).2)
  observe : C.observe = C'.observe
  nCb : C.nCb = C'.nCb
  onCb : ∀ i e x, C.onCb i e (emb x) = emb (C'.onCb i e x)

/-- the environment with other modules and a longer past -/
def embEnv (emb : σ' → σ) (past : List (LogEntry A S R O ℝ)) (env : Env σ' A S R O ℝ) : Env σ A S R O ℝ :=
  ⟨emb env.comp, env.terminated, past ++ env.log⟩

variable {C : Comps σ A S R O ℝ} {C' : Comps σ' A S R O ℝ} {emb : σ' → σ}
  {past : List (LogEntry A S R O ℝ)}

theorem embeds_fire (h : Embeds C C' emb) (env : Env σ' A S R O ℝ) (e : CbEvent A S R ℝ) :
    (embEnv emb past env).fire C e = embEnv emb past (env.fire C' e) := by
  simp only [Env.fire, embEnv, h.nCb, List.append_assoc, Env.mk.injEq, and_true]
  generalize env.comp = x
  generalize List.range C'.nCb = l
  induction l generalizing x with
  | nil => rfl
  | cons i l ih => simp only [List.foldl_cons, h.onCb, ih]

theorem embeds_reset (h : Embeds C C' emb) (env : Env σ' A S R O ℝ) (n : ℕ) :
    (embEnv emb past env).reset C n = (embEnv emb past (env.reset C' n).1, (env.reset C' n).2) := by
  unfold Env.reset
  have e0 : ({ embEnv emb past env with comp := C.seed n (embEnv emb past env).comp, log := (embEnv emb past env).log ++ [.seed n] } : Env σ A S R O ℝ)
      = embEnv emb past { env with comp := C'.seed n env.comp, log := env.log ++ [.seed n] } := by
    simp only [embEnv, h.seed, List.append_assoc]
  simp only [e0, embeds_fire h]
  generalize Env.fire C' _ _ = e1
  simp only [embEnv, Env.call, h.psReset, Call.bind, List.append_assoc]
  cases hp : (C'.psReset e1.comp).2 with
  | error e => rfl
  | ok s =>
    simp only [h.refReset]
    cases hr : (C'.refReset (C'.psReset e1.comp).1 s).2 with
    | error e => rfl
    | ok ro =>
      simp only [h.rewReset, h.observe]
      exact Prod.ext (embeds_fire h (past := past) ⟨_, _, _⟩ _) rfl

theorem embeds_step (h : Embeds C C' emb) (env : Env σ' A S R O ℝ) (a : A) :
    (embEnv emb past env).step C a = (embEnv emb past (env.step C' a).1, (env.step C' a).2) := by
  have hb : (embEnv emb past env).stepBody C a = (embEnv emb past (env.stepBody C' a).1, (env.stepBody C' a).2) := by
    unfold Env.stepBody
    have hk : C.psK (embEnv emb past env).comp = C'.psK env.comp := h.psK _
    simp only [hk, embeds_fire h]
    generalize Env.fire C' _ _ = e1
    simp only [embEnv, Env.call, h.simulate, Call.bind, List.append_assoc]
    cases h1 : (C'.simulate e1.comp a).2 with
    | error e => rfl
    | ok s =>
      simp only [h.getRef]
      cases h2 : (C'.getRef (C'.simulate e1.comp a).1 s).2 with
      | error e => rfl
      | ok r =>
        simp only [h.check]
        generalize (C'.getRef (C'.simulate e1.comp a).1 s).1 = x2
        cases h3 : (C'.check x2 s).2 with
        | error e => rfl
        | ok d =>
          simp only [h.reward, h.psK]
          generalize (C'.check x2 s).1 = x3
          cases h4 : (C'.reward x3 s r (C'.psK x3) a d).2 with
          | error e => rfl
          | ok w =>
            simp only [h.refObs]
            generalize (C'.reward x3 s r (C'.psK x3) a d).1 = x4
            cases h5 : (C'.refObs x4 s).2 with
            | error e => rfl
            | ok o =>
              simp only [h.psK, h.observe]
              exact Prod.ext (embeds_fire h (past := past) ⟨_, _, _⟩ _) (by rw [fire_terminated, fire_terminated])
  unfold Env.step
  have ht : (embEnv emb past env).terminated = env.terminated := rfl
  rw [ht]
  split
  · rfl
  · simp only [hb]

theorem embeds_run (h : Embeds C C' emb) (asks : List (Ask A)) (env : Env σ' A S R O ℝ) :
    (run C (embEnv emb past env) (asks.map (Ask.op σ))).1 = embEnv emb past (run C' env (asks.map (Ask.op σ'))).1 ∧
      seen (run C (embEnv emb past env) (asks.map (Ask.op σ))).2 = seen (run C' env (asks.map (Ask.op σ'))).2 := by
  induction asks generalizing env with
  | nil => exact ⟨rfl, rfl⟩
  | cons q asks ih =>
    have key : ∃ env₁ out, apply C (embEnv emb past env) (q.op σ) = (embEnv emb past env₁, out) ∧ apply C' env (q.op σ') = (env₁, out) := by
      cases q with
      | reset n => exact ⟨_, _, by simp only [Ask.op, Core.apply, embeds_reset h], rfl⟩
      | step a => exact ⟨_, _, by simp only [Ask.op, Core.apply, embeds_step h], rfl⟩
      | close => exact ⟨_, _, by simp only [Ask.op, Core.apply, embeds_fire h], rfl⟩
    obtain ⟨env₁, out, h1, h2⟩ := key
    obtain ⟨i1, i2⟩ := ih env₁
    simp only [List.map_cons, Core.run, h1, h2, seen, List.map_cons, List.cons.injEq, true_and]
    exact ⟨i1, i2⟩

end inside

/-! ## The replacement -/

section replacement

variable {Y U A S C P G τ ρ : Type}

/-- the modules after the assignment, in the type of the modules before -/
def inserted (x : World S C P G ρ) : World S C P G (τ ⊕ ρ) := ⟨x.sys, x.draws, .inr x.ref⟩

theorem replaceable_embeds (c : Setup Y U A S C P G τ) (h : RefGen ρ ℝ) (seedNew : ℕ → ρ → ρ) (w : Wse String)
    (m : Monitor (List ℝ) ℝ) (idx : List ℕ) :
    Embeds (comps (replaceable c h seedNew) w m idx) (comps (constructedWith c h seedNew) w m idx) inserted := by
  constructor <;> intros <;> rfl

theorem self_embeds {σ B S R O : Type} (M : Comps σ B S R O ℝ) : Embeds M M id := by
  constructor <;> intros <;> rfl

theorem seen_assign (c : Setup Y U A S C P G τ) (h : RefGen ρ ℝ) (seedNew : ℕ → ρ → ρ) (w : Wse String)
    (m : Monitor (List ℝ) ℝ) (idx : List ℕ) (t : ρ) (env : Env (World S C P G (τ ⊕ ρ)) A (List ℝ) (List ℝ) (List ℝ) ℝ)
    (asks : List (Ask A)) :
    seen (Core.run (comps (replaceable c h seedNew) w m idx) env (assign t :: asks.map (Ask.op _))).2 =
      .none :: seen (Core.run (comps (constructedWith c h seedNew) w m idx) ⟨⟨env.comp.sys, env.comp.draws, t⟩, true, []⟩
        (asks.map (Ask.op _))).2 := by
  have e := embeds_run (replaceable_embeds c h seedNew w m idx) (past := env.log) asks ⟨⟨env.comp.sys, env.comp.draws, t⟩, true, []⟩
  rw [← e.2]
  simp only [embEnv, inserted, List.append_nil, assign, Core.run, Core.apply, seen, List.map_cons]

/-- The modules that take note of the reference generator are the same. -/
theorem modules_same {c : Setup Y U A S C P G τ} {h : RefGen ρ ℝ} {seedNew : ℕ → ρ → ρ}
    (hw : h.referenced = c.gen.referenced ∨
      ∃ a normed violation gamma power bias, c.wse = Wse.init (some a) normed violation gamma power bias) :
    modules (constructedWith c h seedNew) = modules c := by
  have key : setModules c.lower c.wse ⟨c.names, c.low, c.high, h.referenced⟩
      = setModules c.lower c.wse ⟨c.names, c.low, c.high, c.gen.referenced⟩ := by
    rcases hw with e | ⟨a, normed, violation, gamma, power, bias, e⟩
    · rw [e]
    · rw [e]
      rfl
  unfold modules
  simp only [constructedWith, key]

/-- C121: a generator that has been told the physical system is assigned at any time, and it references the same states as the former
one, or the weights of the reward function were given.  From then on nothing distinguishes the environment from one constructed with the
new generator around the same physical system, except for `observation_space`. -/
theorem c121_prepared_partial (c : Setup Y U A S C P G τ) {w : Wse String} {m : Monitor (List ℝ) ℝ} {idx : List ℕ}
    (hm : modules c = .ok (w, m, idx)) (h : RefGen ρ ℝ) (seedNew : ℕ → ρ → ρ)
    (hw : h.referenced = c.gen.referenced ∨
      ∃ a normed violation gamma power bias, c.wse = Wse.init (some a) normed violation gamma power bias)
    (t : ρ) (env : Env (World S C P G (τ ⊕ ρ)) A (List ℝ) (List ℝ) (List ℝ) ℝ) (asks : List (Ask A)) :
    ∃ fresh, build (constructedWith c h seedNew) = .ok fresh ∧
      seen (Core.run (comps (replaceable c h seedNew) w m idx) env (assign t :: asks.map (Ask.op _))).2 =
        .none :: seen (Core.run fresh (Env.init fresh ⟨env.comp.sys, env.comp.draws, t⟩) (asks.map (Ask.op _))).2 := by
  refine ⟨comps (constructedWith c h seedNew) w m idx, by unfold build; rw [modules_same hw, hm]; rfl, ?_⟩
  rw [seen_assign]
  have e := embeds_run (self_embeds (comps (constructedWith c h seedNew) w m idx))
    (past := (Env.init (comps (constructedWith c h seedNew) w m idx) ⟨env.comp.sys, env.comp.draws, t⟩).log) asks
    ⟨⟨env.comp.sys, env.comp.draws, t⟩, true, []⟩
  rw [← e.2]
  have hi : embEnv id (Env.init (comps (constructedWith c h seedNew) w m idx) ⟨env.comp.sys, env.comp.draws, t⟩).log
      ⟨⟨env.comp.sys, env.comp.draws, t⟩, true, []⟩
      = Env.init (comps (constructedWith c h seedNew) w m idx) ⟨env.comp.sys, env.comp.draws, t⟩ := by
    have hc := fire_comp (constructedWith c h seedNew) w m idx ⟨⟨env.comp.sys, env.comp.draws, t⟩, true, []⟩ .setEnv
    have key : ∀ (E : Env (World S C P G ρ) A (List ℝ) (List ℝ) (List ℝ) ℝ) (x : World S C P G ρ), E.comp = x → E.terminated = true →
        (⟨x, true, E.log⟩ : Env (World S C P G ρ) A (List ℝ) (List ℝ) (List ℝ) ℝ) = E := by
      rintro ⟨_, _, _⟩ x rfl h
      simp only at h
      rw [h]
    simp only [embEnv, List.append_nil, id]
    exact key _ _ hc (fire_terminated _ _ _)
  rw [hi]

/-! ### What the answers come from -/

section answers

variable {c : Setup Y U A S C P G ρ} {w : Wse String} {m : Monitor (List ℝ) ℝ} {idx : List ℕ}

theorem done_of {env : Env (World S C P G ρ) A (List ℝ) (List ℝ) (List ℝ) ℝ} {a : A} {r : StepResult (List ℝ) (List ℝ) ℝ}
    (h : (env.step (comps c w m idx) a).2 = .done r) :
    ∃ t t' s ref d, (c.gen.getRef t s).2 = .ok ref ∧ m.check s = .ok d ∧ Reward.reward w s ref d = .ok (.fin r.reward) ∧
      (c.gen.getObs t' s).2 = .ok r.obs.2 ∧ r.obs.1 = take s idx ∧ r.terminated = decide (1 ≤ d) := by
  unfold Env.step at h
  split at h
  · simp at h
  simp only at h
  split at h
  case h_2 => simp at h
  rename_i hx
  simp only [Env.StepOut.done.injEq] at h
  subst h
  unfold Env.stepBody at hx
  simp only [Env.call, Call.bind] at hx
  split at hx
  case h_2 => simp at hx
  rename_i s h1
  split at hx
  case h_2 => simp at hx
  rename_i ref h2
  split at hx
  case h_2 => simp at hx
  rename_i d h3
  split at hx
  case h_2 => simp at hx
  rename_i x h4
  split at hx
  case h_2 => simp at hx
  rename_i o h5
  simp only [Except.ok.injEq] at hx
  subst hx
  refine ⟨_, _, s, ref, d, h2, h3, ?_, h5, rfl, rfl⟩
  have h4' : number (Reward.reward w s ref d) = .ok x := h4
  unfold number at h4'
  split at h4' <;> simp_all

theorem resetOk_of {env : Env (World S C P G ρ) A (List ℝ) (List ℝ) (List ℝ) ℝ} {n : ℕ} {o : List ℝ × List ℝ}
    (h : (env.reset (comps c w m idx) n).2 = .ok o) :
    ∃ t s ref, (c.gen.reset t s none).2 = .ok (ref, o.2) ∧ o.1 = take s idx := by
  unfold Env.reset at h
  simp only [Env.call, Call.bind] at h
  split at h
  case h_2 => simp at h
  rename_i s h1
  split at h
  case h_2 => simp at h
  rename_i ro h2
  simp only [Except.ok.injEq] at h
  subst h
  exact ⟨_, s, ro.1, h2, rfl⟩

theorem seen_of (asks : List (Ask A)) (env : Env (World S C P G ρ) A (List ℝ) (List ℝ) (List ℝ) ℝ) :
    ∀ out ∈ seen (Core.run (comps c w m idx) env (asks.map (Ask.op _))).2,
      (∀ r, out = .step (.done r) → ∃ t t' s ref d, (c.gen.getRef t s).2 = .ok ref ∧ m.check s = .ok d ∧
        Reward.reward w s ref d = .ok (.fin r.reward) ∧ (c.gen.getObs t' s).2 = .ok r.obs.2 ∧ r.obs.1 = take s idx ∧
        r.terminated = decide (1 ≤ d)) ∧
      ∀ o, out = .resetOk o → ∃ t s ref, (c.gen.reset t s none).2 = .ok (ref, o.2) ∧ o.1 = take s idx := by
  induction asks generalizing env with
  | nil => simp [seen, Core.run]
  | cons q asks ih =>
    intro out ho
    simp only [List.map_cons, Core.run, seen, List.mem_cons] at ho
    rcases ho with rfl | ho
    · cases q with
      | reset n =>
        refine ⟨fun r hr => ?_, fun o ho => ?_⟩
        · simp only [Ask.op, Core.apply] at hr
          split at hr <;> simp at hr
        · simp only [Ask.op, Core.apply] at ho
          split at ho
          · rename_i hx
            simp only [Out.resetOk.injEq] at ho
            subst ho
            exact resetOk_of hx
          · simp at ho
      | step a =>
        refine ⟨fun r hr => ?_, fun o ho => ?_⟩
        · simp only [Ask.op, Core.apply, Out.step.injEq] at hr
          exact done_of hr
        · simp [Ask.op, Core.apply] at ho
      | close => exact ⟨fun r hr => by simp [Ask.op, Core.apply] at hr, fun o ho => by simp [Ask.op, Core.apply] at ho⟩
    · exact ih _ out ho

end answers

/-- a reward that is a number comes from arrays of the right length -/
theorem reward_lengths {lower : String → String} {M : Modules String} (hM : Reward.Sound M) {violation : Option ℝ} {gamma : ℝ}
    {power : Utils.Input String ℝ} {bias : Bias} {o : Wse String}
    (h : setModules lower (Wse.init none false violation gamma power bias) M = .ok o) {s r : List ℝ} {d x : ℝ}
    (hx : Reward.reward o s r d = .ok (.fin x)) : s.length = M.names.length ∧ r.length = M.names.length := by
  obtain ⟨n, w, v, hn, hw, hv, rfl⟩ := setModules_spec lower M none false violation gamma power bias o h
  have ll : (List.zipWith (· - ·) M.high M.low).length = M.names.length := by simp [hM.high, hM.low]
  simp only [Reward.reward, wse, Bool.false_eq_true, if_false] at hx
  split at hx
  · simp at hx
  · rename_i hy
    split at hy
    · rename_i hl
      rw [ll] at hl
      exact ⟨hl.1, hl.2.1⟩
    · simp at hy

/-- C121 (violated): the reward function has default weights, and any generator is assigned.  Whatever it references, every step of the
further history is rewarded for the states that the *former* generator referenced. -/
theorem c121_reward_violated (c : Setup Y U A S C P G τ) (hc : Coherent c) {w : Wse String} {m : Monitor (List ℝ) ℝ} {idx : List ℕ}
    (hm : modules c = .ok (w, m, idx)) {violation : Option ℝ} {gamma p b : ℝ}
    (hw : c.wse = Wse.init none false violation gamma (.scalar p) (.num b)) (href : true ∈ c.gen.referenced)
    (h : RefGen ρ ℝ) (seedNew : ℕ → ρ → ρ) (t : ρ) (env : Env (World S C P G (τ ⊕ ρ)) A (List ℝ) (List ℝ) (List ℝ) ℝ)
    (asks : List (Ask A)) (r : StepResult (List ℝ) (List ℝ) ℝ)
    (hr : .step (.done r) ∈ seen (Core.run (comps (replaceable c h seedNew) w m idx) env (assign t :: asks.map (Ask.op _))).2)
    (hrt : r.terminated = false) :
    ∃ t t' s ref, (h.getRef t s).2 = .ok ref ∧ (h.getObs t' s).2 = .ok r.obs.2 ∧ s.length = c.names.length ∧
      ref.length = c.names.length ∧ r.obs.1 = (shown c).map (fun n => entry s (c.names.idxOf n)) ∧
      r.reward = b - (∑ i ∈ (Finset.range c.names.length).filter (fun i => c.gen.referenced.getD i false = true),
        (|entry s i - entry ref i| / (entry c.high i - entry c.low i)) ^ p) / ((c.gen.referenced.filter id).length : ℝ) := by
  rw [seen_assign] at hr
  simp only [List.mem_cons, reduceCtorEq, false_or] at hr
  obtain ⟨t, t', s, ref, d, h1, h2, h3, h4, h5, h6⟩ := (seen_of asks _ _ hr).1 r rfl
  obtain ⟨-, -, -, hset, -⟩ := modules_ok hm
  rw [hw] at hset
  obtain ⟨l1, l2⟩ := reward_lengths hc.sound hset h3
  obtain ⟨d', e1, e2, -⟩ := degree_of hc hm s l1
  rw [e1, Except.ok.injEq] at h2
  subst h2
  have hd : d' = 0 := by
    rcases e2 with e | e
    · exact e
    · rw [hrt, e] at h6
      simp at h6
  subst hd
  refine ⟨t, t', s, ref, h1, h4, l1, l2, h5.trans (observation_of hm s), ?_⟩
  exact (c45_default c.lower _ hc.sound hc.lower hc.distinct violation gamma p b w hset s ref l1 l2 _ h3).1 ⟨true, href, rfl⟩

/-- C121 (violated, other states): if the new generator references none of the former states (its reference arrays are 0 there), the
drive is rewarded for keeping the former states at 0, and the new references have no influence at all. -/
theorem c121_target_violated (c : Setup Y U A S C P G τ) (hc : Coherent c) {w : Wse String} {m : Monitor (List ℝ) ℝ} {idx : List ℕ}
    (hm : modules c = .ok (w, m, idx)) {violation : Option ℝ} {gamma p b : ℝ}
    (hw : c.wse = Wse.init none false violation gamma (.scalar p) (.num b)) (href : true ∈ c.gen.referenced)
    (h : RefGen ρ ℝ) (hz : ∀ t s ref, (h.getRef t s).2 = .ok ref → ∀ i, c.gen.referenced.getD i false = true → entry ref i = 0)
    (seedNew : ℕ → ρ → ρ) (t : ρ) (env : Env (World S C P G (τ ⊕ ρ)) A (List ℝ) (List ℝ) (List ℝ) ℝ)
    (asks : List (Ask A)) (r : StepResult (List ℝ) (List ℝ) ℝ)
    (hr : .step (.done r) ∈ seen (Core.run (comps (replaceable c h seedNew) w m idx) env (assign t :: asks.map (Ask.op _))).2)
    (hrt : r.terminated = false) :
    ∃ s : List ℝ, s.length = c.names.length ∧ r.obs.1 = (shown c).map (fun n => entry s (c.names.idxOf n)) ∧
      r.reward = b - (∑ i ∈ (Finset.range c.names.length).filter (fun i => c.gen.referenced.getD i false = true),
        (|entry s i| / (entry c.high i - entry c.low i)) ^ p) / ((c.gen.referenced.filter id).length : ℝ) := by
  obtain ⟨t, t', s, ref, h1, -, l1, l2, h2, h3⟩ := c121_reward_violated c hc hm hw href h seedNew t env asks r hr hrt
  refine ⟨s, l1, h2, h3.trans ?_⟩
  congr 2
  refine Finset.sum_congr rfl fun i hi => ?_
  rw [hz t s ref h1 i (Finset.mem_filter.1 hi).2, sub_zero]

/-- C121 (violated, constants): a constant reference generator is assigned as the user constructed it.  There is no exception: the
environment shows its value, but whatever state it is for, the value counts as the reference of the states that the former generator
referenced. -/
theorem c121_constant_violated (c : Setup Y U A S C P G τ) (hc : Coherent c) {w : Wse String} {m : Monitor (List ℝ) ℝ} {idx : List ℕ}
    (hm : modules c = .ok (w, m, idx)) {violation : Option ℝ} {gamma p b : ℝ}
    (hw : c.wse = Wse.init none false violation gamma (.scalar p) (.num b)) (href : true ∈ c.gen.referenced)
    (name : String) (x : ℝ) (env : Env (World S C P G (τ ⊕ Unit)) A (List ℝ) (List ℝ) (List ℝ) ℝ)
    (asks : List (Ask A)) (r : StepResult (List ℝ) (List ℝ) ℝ)
    (hr : .step (.done r) ∈
      seen (Core.run (comps (replaceable c (rawConst name x) fun _ => id) w m idx) env (assign () :: asks.map (Ask.op _))).2)
    (hrt : r.terminated = false) :
    r.obs.2 = [x] ∧ ∃ s : List ℝ, s.length = c.names.length ∧ r.obs.1 = (shown c).map (fun n => entry s (c.names.idxOf n)) ∧
      r.reward = b - (∑ i ∈ (Finset.range c.names.length).filter (fun i => c.gen.referenced.getD i false = true),
        (|entry s i - x| / (entry c.high i - entry c.low i)) ^ p) / ((c.gen.referenced.filter id).length : ℝ) := by
  obtain ⟨t, t', s, ref, h1, h1', l1, l2, h2, h3⟩ :=
    c121_reward_violated c hc hm hw href (rawConst name x) (fun _ => id) () env asks r hr hrt
  simp only [rawConst, Except.ok.injEq] at h1 h1'
  refine ⟨h1'.symm, s, l1, h2, h3.trans ?_⟩
  congr 2
  refine Finset.sum_congr rfl fun i hi => ?_
  have hi' : i < s.length := by rw [l1]; exact Finset.mem_range.1 (Finset.mem_filter.1 hi).1
  have e : entry ref i = x := by rw [← h1]; simp [entry, hi']
  rw [e]

/-- C121 (violated, other generators): assigned as the user constructed them, they make every reset of the further history raise. -/
theorem c121_refusal_violated (c : Setup Y U A S C P G τ) (w : Wse String) (m : Monitor (List ℝ) ℝ) (idx : List ℕ)
    (raw : Raw) {e : Err} (he : raw.refusal = some e) (h : RefGen ρ ℝ) (hraw : raw.IsReset h) (seedNew : ℕ → ρ → ρ) (t : ρ)
    (env : Env (World S C P G (τ ⊕ ρ)) A (List ℝ) (List ℝ) (List ℝ) ℝ) (asks : List (Ask A)) (o : List ℝ × List ℝ) :
    .resetOk o ∉ seen (Core.run (comps (replaceable c h seedNew) w m idx) env (assign t :: asks.map (Ask.op _))).2 := by
  intro ho
  rw [seen_assign] at ho
  simp only [List.mem_cons, reduceCtorEq, false_or] at ho
  obtain ⟨t, s, ref, h1, -⟩ := (seen_of asks _ _ ho).2 o rfl
  have h1' : (h.reset t s none).2 = .ok (ref, o.2) := h1
  rw [hraw e he] at h1'
  simp at h1'

/-- C121 (violated, spaces): `observation_space` remains that of the construction.  If the new generator shows another number of
references, no observation of the further history is inside. -/
theorem c121_space_violated (c : Setup Y U A S C P G τ) (w : Wse String) (m : Monitor (List ℝ) ℝ) (idx : List ℕ)
    (h : RefGen ρ ℝ) (n : ℕ) (hn : n ≠ c.gen.low.length)
    (h1 : ∀ t s ref o, (h.reset t s none).2 = .ok (ref, o) → o.length = n) (h2 : ∀ t s o, (h.getObs t s).2 = .ok o → o.length = n)
    (seedNew : ℕ → ρ → ρ) (t : ρ) (env : Env (World S C P G (τ ⊕ ρ)) A (List ℝ) (List ℝ) (List ℝ) ℝ) (asks : List (Ask A))
    (out : Out (List ℝ) (List ℝ) ℝ)
    (ho : out ∈ seen (Core.run (comps (replaceable c h seedNew) w m idx) env (assign t :: asks.map (Ask.op _))).2) :
    (∀ o, out = .resetOk o → ¬ Within (replaceable c h seedNew).gen.low (replaceable c h seedNew).gen.high o.2) ∧
      ∀ r, out = .step (.done r) → ¬ Within (replaceable c h seedNew).gen.low (replaceable c h seedNew).gen.high r.obs.2 := by
  rw [seen_assign] at ho
  simp only [List.mem_cons] at ho
  rcases ho with rfl | ho
  · simp
  obtain ⟨k1, k2⟩ := seen_of asks _ _ ho
  refine ⟨fun o e hin => ?_, fun r e hin => ?_⟩
  · obtain ⟨t, s, ref, q, -⟩ := k2 o e
    exact hn ((h1 t s ref o.2 q).symm.trans hin.1.length_eq.symm)
  · obtain ⟨t, t', s, ref, d, -, -, -, q, -⟩ := k1 r e
    exact hn ((h2 t' s r.obs.2 q).symm.trans hin.1.length_eq.symm)

end replacement

/-! ## A case -/

/-- `fastEnv` with default weights -/
noncomputable def looseEnv : Setup (Sys.DcY ℝ) (List ℝ) (List ℝ) (Sys.DcY ℝ × ℝ) (Conv.CConv ℝ) Unit Unit Unit :=
  { fastEnv with wse := Wse.init none false none (9 / 10) (.scalar 1) (.num 0) }

/-- the torque is to be half of its limit -/
noncomputable def halfTorque : RefGen Unit ℝ := constGen "torque" [false, true, false, false, false] (1 / 2)

theorem loose_coherent : Coherent looseEnv := by
  refine ⟨⟨rfl, rfl, rfl, ?_⟩, by simp [looseEnv, fastEnv], fun _ _ => rfl, by simp [looseEnv, fastEnv], none, false, none, 9 / 10,
    .scalar 1, .num 0, rfl, by simp [NonnegArg], by simp [Nonneg], by norm_num, by simp⟩
  intro i hi
  have hi : i < 5 := hi
  show entry [-1, -1, -1, -1, 0] i < entry [1, 1, 1, 1, 1] i
  interval_cases i <;> norm_num [entry]

theorem loose_modules (g : RefGen Unit ℝ) (mask : List Bool) (hg : g.referenced = mask)
    (hmask : mask = [true, false, false, false, false] ∨ mask = [false, true, false, false, false]) :
    ∃ w m idx, modules (constructedWith looseEnv g fun _ => id) = .ok (w, m, idx) ∧
      ∀ ref : List ℝ, ref.length = 5 → number (Reward.reward w [2, 1 / 5, 1 / 5, 0, 1] ref 0) =
        .ok (if mask = [true, false, false, false, false] then -(|2 - entry ref 0| / 2) else -(|1 / 5 - entry ref 1| / 2)) := by
  set c := constructedWith looseEnv g fun _ => id with hc
  have hw : ∃ w, setModules c.lower c.wse ⟨c.names, c.low, c.high, c.gen.referenced⟩ = .ok w ∧
      ∀ ref : List ℝ, ref.length = 5 → number (Reward.reward w [2, 1 / 5, 1 / 5, 0, 1] ref 0) =
        .ok (if mask = [true, false, false, false, false] then -(|2 - entry ref 0| / 2) else -(|1 / 5 - entry ref 1| / 2)) := by
    rcases hmask with rfl | rfl
    all_goals
      simp [hc, constructedWith, looseEnv, fastEnv, hg, setModules, Wse.init, setStateArray, weightArray, stateDictToStateArray,
        Except.map, finish, violationOf, defaultViolation, Bias.value, lookup, defaultWeights, uniformDict, selected]
      rw [if_neg (by norm_num)]
      refine ⟨_, rfl, ?_⟩
      intro ref hl
      match ref, hl with
      | [a, b, c, d, e], _ => norm_num [Reward.reward, wse, number, mix, terms, term, entry]
  obtain ⟨w, h1, h2⟩ := hw
  obtain ⟨x, hx⟩ := (c114_constructed c (fun n _ => rfl) ⟨w, h1⟩).2 (by simp [hc, constructedWith, looseEnv, fastEnv, shown])
  unfold build at hx
  cases hm : modules c with
  | error e => simp [hm, Except.map] at hx
  | ok y =>
    obtain ⟨w', m, idx⟩ := y
    obtain ⟨-, -, -, h4, -⟩ := modules_ok hm
    rw [h1, Except.ok.injEq] at h4
    subst h4
    exact ⟨w, m, idx, rfl, h2⟩

/-- reset and first step with constant references -/
theorem loose_history (c : Setup (Sys.DcY ℝ) (List ℝ) (List ℝ) (Sys.DcY ℝ × ℝ) (Conv.CConv ℝ) Unit Unit Unit)
    (h : RefGen Unit ℝ) (hp : c = constructedWith looseEnv h fun _ => id)
    {w : Wse String} {m : Monitor (List ℝ) ℝ} {idx : List ℕ} {ref o : List ℝ}
    (hd : m.check [2, 1 / 5, 1 / 5, 0, 1] = .ok 0)
    (q1 : ∀ s : List ℝ, s.length = 5 → h.reset () s none = ((), .ok (ref, o)))
    (q2 : ∀ s : List ℝ, s.length = 5 → h.getRef () s = ((), .ok ref))
    (q3 : ∀ s : List ℝ, s.length = 5 → h.getObs () s = ((), .ok o)) {x : ℝ}
    (hx : number (Reward.reward w [2, 1 / 5, 1 / 5, 0, 1] ref 0) = .ok x) :
    ∃ o₁ r, seen (Core.run (comps c w m idx) ⟨fastWorld, true, []⟩ ([.reset 0, .step [0]].map (Ask.op _))).2
      = [.resetOk o₁, .step (.done r)] ∧ r.terminated = false ∧ r.reward = x := by
  subst hp
  set c := constructedWith looseEnv h fun _ => id with hc
  obtain ⟨st', h4⟩ := fast_step
  set S0 : World (Sys.DcY ℝ × ℝ) (Conv.CConv ℝ) Unit Unit Unit :=
    ⟨⟨0, 0, (⟨[0], [2]⟩, 0), .four (Conv.CFour.new 1 0), ()⟩, (), ()⟩ with hS0
  have h5 := fast_reset fastWorld.sys rfl
  have e1 : (comps c w m idx).psReset ((comps c w m idx).seed 0 fastWorld) = (S0, .ok [0, 1 / 5, 1 / 5, 0, 1]) := by
    show (World.mk (Sys.reset fastParts fastEnv.rep fastEnv.limits fastWorld.sys ⟨[0], [2]⟩).1 () (),
      (Sys.reset fastParts fastEnv.rep fastEnv.limits fastWorld.sys ⟨[0], [2]⟩).2) = _
    rw [h5]
  have e2 : (comps c w m idx).refReset S0 [0, 1 / 5, 1 / 5, 0, 1] = (S0, .ok (ref, o)) := by
    show (World.mk S0.sys () (h.reset () [0, 1 / 5, 1 / 5, 0, 1] none).1, (h.reset () [0, 1 / 5, 1 / 5, 0, 1] none).2) = _
    rw [q1 _ rfl]
  have k1 : (comps c w m idx).simulate S0 [0] = ({ S0 with sys := st' }, .ok [2, 1 / 5, 1 / 5, 0, 1]) := by
    show (World.mk (Sys.simulate fastParts fastEnv.f fastEnv.tau fastEnv.limits S0.sys [0]).1 () (),
      (Sys.simulate fastParts fastEnv.f fastEnv.tau fastEnv.limits S0.sys [0]).2) = _
    rw [h4]
  have k2 : (comps c w m idx).getRef { S0 with sys := st' } [2, 1 / 5, 1 / 5, 0, 1] = ({ S0 with sys := st' }, .ok ref) := by
    show (World.mk st' () (h.getRef () [2, 1 / 5, 1 / 5, 0, 1]).1, (h.getRef () [2, 1 / 5, 1 / 5, 0, 1]).2) = _
    rw [q2 _ rfl]
  have k3 : (comps c w m idx).check { S0 with sys := st' } [2, 1 / 5, 1 / 5, 0, 1] = ({ S0 with sys := st' }, .ok 0) := by
    simp only [comps, hd]
  have k4 : ∀ k, (comps c w m idx).reward { S0 with sys := st' } [2, 1 / 5, 1 / 5, 0, 1] ref k [0] 0
      = ({ S0 with sys := st' }, .ok x) := by
    intro k
    simp only [comps, hx]
  have k5 : (comps c w m idx).refObs { S0 with sys := st' } [2, 1 / 5, 1 / 5, 0, 1] = ({ S0 with sys := st' }, .ok o) := by
    show (World.mk st' () (h.getObs () [2, 1 / 5, 1 / 5, 0, 1]).1, (h.getObs () [2, 1 / 5, 1 / 5, 0, 1]).2) = _
    rw [q3 _ rfl]
  have k6 : ∀ x s r, (comps c w m idx).rewReset x s r = x := fun _ _ _ => rfl
  simp only [List.map_cons, List.map_nil, Ask.op, Core.run, Core.apply, Env.reset, Env.step, Env.stepBody, Env.call, fire_comp, Call.bind,
    e1, e2, k6, fire_terminated, Bool.false_eq_true, if_false, k1, k2, k3, k4, k5, seen]
  exact ⟨_, _, rfl, by norm_num, rfl⟩

theorem loose_degree {g : RefGen Unit ℝ} {w : Wse String} {m : Monitor (List ℝ) ℝ} {idx : List ℕ}
    (h : modules (constructedWith looseEnv g fun _ => id) = .ok (w, m, idx)) :
    m.check [2, 1 / 5, 1 / 5, 0, 1] = .ok 0 := by
  obtain ⟨w₀, m₀, idx₀, f1, -⟩ := fast_modules
  have hm : m = m₀ := by
    obtain ⟨qs, a1, a2, -, -⟩ := modules_ok h
    obtain ⟨qs', b1, b2, -, -⟩ := modules_ok f1
    have e : qs = qs' := by
      have : (Except.ok qs : Except Err _) = .ok qs' := a1.symm.trans b1
      simpa using this
    subst e
    have : (Except.ok m : Except Err _) = .ok m₀ := a2.symm.trans b2
    simpa using this
  subst hm
  obtain ⟨d, d1, d2, d3⟩ := degree_of fast_coherent f1 [2, 1 / 5, 1 / 5, 0, 1] rfl
  have hd : d = 0 := by
    refine d2.resolve_right fun hd => ?_
    rcases d3.1 hd with ⟨i, n, x, e1, e2, e3, k, hk, e4⟩ | ⟨g, hg, -⟩
    · simp only [fastEnv, List.mem_singleton] at hk e1 e4
      subst hk
      simp only [id, String.reduceEq, false_or] at e4
      subst e4
      have hi : i < 5 := by simpa using (List.getElem?_eq_some_iff.1 e1).1
      interval_cases i <;> simp at e1
      simp only [List.getElem?_cons_succ, List.getElem?_cons_zero, Option.some.injEq] at e2
      subst e2
      norm_num at e3
    · simp [fastEnv] at hg
  rw [d1, hd]

/-- C121 (violated, a case): the speed is at twice its limit and the torque at a fifth when the environment is told to follow half of the
maximum torque.  Constructed with this generator, the environment gives the reward -3/20 for the step, the error of the torque.  With the
generator assigned after `set_modules` it gives -1 (the speed is not 0), without `set_modules` -3/4 (the speed is not a half). -/
theorem c121_case_violated :
    (∃ m, build (constructedWith looseEnv halfTorque fun _ => id) = .ok m ∧ ∃ o r,
      seen (Core.run m ⟨fastWorld, true, []⟩ ([.reset 0, .step [0]].map (Ask.op _))).2 = [.resetOk o, .step (.done r)] ∧
      r.terminated = false ∧ r.reward = -(3 / 20)) ∧
    ∃ w m idx, modules looseEnv = .ok (w, m, idx) ∧
      ∀ env : Env (World (Sys.DcY ℝ × ℝ) (Conv.CConv ℝ) Unit Unit (Unit ⊕ Unit)) (List ℝ) (List ℝ) (List ℝ) (List ℝ) ℝ,
        env.comp.sys = fastWorld.sys →
        (∃ o r, seen (Core.run (comps (replaceable looseEnv halfTorque fun _ => id) w m idx) env
            (assign () :: [.reset 0, .step [0]].map (Ask.op _))).2 = [.none, .resetOk o, .step (.done r)] ∧
          r.terminated = false ∧ r.reward = -1) ∧
        ∃ o r, seen (Core.run (comps (replaceable looseEnv (rawConst "torque" (1 / 2)) fun _ => id) w m idx) env
            (assign () :: [.reset 0, .step [0]].map (Ask.op _))).2 = [.none, .resetOk o, .step (.done r)] ∧
          r.terminated = false ∧ r.reward = -(3 / 4) := by
  have p1 : ∀ s : List ℝ, halfTorque.reset () s none = ((), .ok ([0, 1 / 2, 0, 0, 0], [1 / 2])) := fun s => by
    simp [halfTorque, constGen, baseReset, Call.bind, place]
  have p2 : ∀ s : List ℝ, halfTorque.getRef () s = ((), .ok [0, 1 / 2, 0, 0, 0]) := fun s => by simp [halfTorque, constGen, place]
  have p3 : ∀ s : List ℝ, halfTorque.getObs () s = ((), .ok [1 / 2]) := fun s => by simp [halfTorque, constGen]
  have r1 : ∀ s : List ℝ, s.length = 5 → (rawConst "torque" (1 / 2)).reset () s none = ((), .ok (List.replicate 5 (1 / 2), [1 / 2])) :=
    fun s hs => by simp [rawConst, hs]
  have r2 : ∀ s : List ℝ, s.length = 5 → (rawConst "torque" (1 / 2)).getRef () s = ((), .ok (List.replicate 5 (1 / 2))) :=
    fun s hs => by simp [rawConst, hs]
  have r3 : ∀ s : List ℝ, s.length = 5 → (rawConst "torque" (1 / 2)).getObs () s = ((), .ok [1 / 2]) := fun s _ => by simp [rawConst]
  constructor
  · obtain ⟨w, m, idx, h1, h2⟩ := loose_modules halfTorque [false, true, false, false, false] rfl (.inr rfl)
    have hx := h2 [0, 1 / 2, 0, 0, 0] rfl
    rw [if_neg (by simp), show -(|1 / 5 - entry [0, 1 / 2, 0, 0, 0] 1| / 2) = -(3 / 20 : ℝ) by norm_num [entry, abs_of_neg]] at hx
    exact ⟨_, by unfold build; rw [h1]; rfl, loose_history _ halfTorque rfl (loose_degree h1) (fun s _ => p1 s) (fun s _ => p2 s)
      (fun s _ => p3 s) hx⟩
  · obtain ⟨w, m, idx, h1, h2⟩ := loose_modules looseEnv.gen [true, false, false, false, false] rfl (.inl rfl)
    have h1' : modules looseEnv = .ok (w, m, idx) := h1
    refine ⟨w, m, idx, h1', fun env he => ?_⟩
    have hx := h2 [0, 1 / 2, 0, 0, 0] rfl
    rw [if_pos rfl, show -(|2 - entry [0, 1 / 2, 0, 0, 0] 0| / 2) = (-1 : ℝ) by norm_num [entry]] at hx
    have hy := h2 (List.replicate 5 (1 / 2)) rfl
    rw [if_pos rfl, show -(|2 - entry (List.replicate 5 (1 / 2)) 0| / 2) = -(3 / 4 : ℝ) by norm_num [entry, abs_of_pos]] at hy
    have hworld : (⟨env.comp.sys, env.comp.draws, ()⟩ : World (Sys.DcY ℝ × ℝ) (Conv.CConv ℝ) Unit Unit Unit) = fastWorld := by
      rw [he]
    constructor
    · obtain ⟨o, r, k1, k2, k3⟩ := loose_history _ halfTorque rfl (idx := idx) (loose_degree h1) (fun s _ => p1 s) (fun s _ => p2 s)
        (fun s _ => p3 s) hx
      refine ⟨o, r, ?_, k2, k3⟩
      rw [seen_assign, hworld, k1]
    · obtain ⟨o, r, k1, k2, k3⟩ := loose_history _ (rawConst "torque" (1 / 2)) rfl (idx := idx) (loose_degree h1) r1 r2 r3 hy
      refine ⟨o, r, ?_, k2, k3⟩
      rw [seen_assign, hworld, k1]

/-- the hypotheses of `c121_reward_violated`, `c121_target_violated`, `c121_constant_violated` and `c121_space_violated` -/
example : Coherent looseEnv ∧ true ∈ looseEnv.gen.referenced ∧
    (∀ t s ref, (halfTorque.getRef t s).2 = .ok ref → ∀ i, looseEnv.gen.referenced.getD i false = true → entry ref i = 0) ∧
    (0 ≠ looseEnv.gen.low.length ∧ ∀ t s ref o, ((zeroGen (K := ℝ) 5).reset t s none).2 = .ok (ref, o) → o.length = 0) := by
  refine ⟨loose_coherent, by simp [looseEnv, fastEnv, constGen], ?_, by simp [looseEnv, fastEnv, constGen], ?_⟩
  · intro t s ref h i hi
    simp only [halfTorque, constGen, place, Except.ok.injEq] at h
    subst h
    match i, hi with
    | 0, _ => simp [entry]
    | 1, hi => simp [looseEnv, fastEnv, constGen] at hi
    | 2, hi => simp [looseEnv, fastEnv, constGen] at hi
    | 3, hi => simp [looseEnv, fastEnv, constGen] at hi
    | 4, hi => simp [looseEnv, fastEnv, constGen] at hi
    | n + 5, hi => simp [looseEnv, fastEnv, constGen] at hi
  · intro t s ref o h
    simp only [zeroGen, baseReset, Call.bind, Except.ok.injEq, Prod.mk.injEq] at h
    rw [← h.2]
    rfl

/-- the defaults of the sub-episoded generators refuse -/
example : (Raw.wiener .none false).refusal = some .type ∧ (Raw.laplace .none).refusal = some .type ∧
    (Raw.wave .none).refusal = some .type := ⟨rfl, rfl, rfl⟩

end GEM.Props
