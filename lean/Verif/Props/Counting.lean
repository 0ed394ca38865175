import Verif.Props.Replay

/-!
# C03: the step numbers that the callbacks of whole environments get
-/

set_option linter.unusedSectionVars false

namespace GEM.Props

open GEM GEM.Sys GEM.Refs GEM.Assembly GEM.Registry

noncomputable section

section counting

variable {σ A S R O K : Type*} [LE K] [One K] [DecidableLE K]

open GEM.Core (Comps Env Op Out)

/-- The counter law, with exceptions: a simulation that raises may or may not have counted. -/
structure CountsSteps (C : Comps σ A S R O K) : Prop where
  psReset : ∀ c, C.psK (C.psReset c).1 = 0
  refReset : ∀ c s, C.psK (C.refReset c s).1 = C.psK c
  rewReset : ∀ c s r, C.psK (C.rewReset c s r) = C.psK c
  simulate : ∀ c a s, (C.simulate c a).2 = .ok s → C.psK (C.simulate c a).1 = C.psK c + 1
  getRef : ∀ c s, C.psK (C.getRef c s).1 = C.psK c
  check : ∀ c s, C.psK (C.check c s).1 = C.psK c
  reward : ∀ c s r k a d, C.psK (C.reward c s r k a d).1 = C.psK c
  refObs : ∀ c s, C.psK (C.refObs c s).1 = C.psK c
  onCb : ∀ i e c, C.psK (C.onCb i e c) = C.psK c

/-- Number of executed steps since the last reset, in the eyes of the caller; none if one of them raised. -/
def executed (hist : List (Op σ A × Out S O K)) : Option ℕ :=
  hist.foldl (fun n h => match h with
    | (.reset _, _) => some 0
    | (.step _, .step (.done _)) => n.map (· + 1)
    | (.step _, .step (.raised _)) => none
    | _ => n) (some 0)

theorem counter_fire {C : Comps σ A S R O K} (hC : CountsSteps C) (env : Env σ A S R O K) (e : Core.CbEvent A S R K) :
    C.psK (env.fire C e).comp = C.psK env.comp := by
  simp only [Env.fire]
  generalize List.range C.nCb = l
  induction l generalizing env with
  | nil => rfl
  | cons i l ih =>
    simp only [List.foldl_cons]
    have := ih { env with comp := C.onCb i e env.comp }
    simp only at this
    rw [this, hC.onCb]

theorem counter_reset {C : Comps σ A S R O K} (hC : CountsSteps C) (env : Env σ A S R O K) (n : ℕ) :
    C.psK (env.reset C n).1.comp = 0 := by
  simp only [Env.reset, Env.call, Call.bind]
  split
  · split
    · simp only
      rw [counter_fire hC]
      simp only
      rw [hC.rewReset, hC.refReset, hC.psReset]
    · simp only; rw [hC.refReset, hC.psReset]
  · simp only; rw [hC.psReset]

theorem counter_body {C : Comps σ A S R O K} (hC : CountsSteps C) (env : Env σ A S R O K) (a : A) {x : Core.StepResult S O K}
    (h : (env.stepBody C a).2 = .ok x) :
    C.psK (env.stepBody C a).1.comp = C.psK env.comp + 1 ∧
    ∃ s r d w o, (env.stepBody C a).1.log = env.log ++
      ((List.range C.nCb).map (fun i => .cb i (.stepBegin (C.psK env.comp) a)) ++
      ([.simulate a (.ok s), .getRef s (.ok r), .check s (.ok d), .reward s r (C.psK env.comp + 1) a d (.ok w), .refObs s (.ok o)] ++
      (List.range C.nCb).map (fun i => .cb i (.stepEnd (C.psK env.comp + 1) s r w x.terminated)))) := by
  simp only [Env.stepBody, Env.call, Call.bind] at h ⊢
  cases h1 : (C.simulate (env.fire C (.stepBegin (C.psK env.comp) a)).comp a).2 with
  | error e => simp [h1] at h
  | ok s =>
    simp only [h1] at h ⊢
    have k1 := hC.simulate _ a s h1
    rw [counter_fire hC] at k1
    split at h
    · rename_i r h2
      split at h
      · rename_i d h3
        split at h
        · rename_i w h4
          split at h
          · rename_i o h5
            simp only [h2, h3, h4, h5] at h ⊢
            cases h
            rw [counter_fire hC]
            simp only
            rw [hC.refObs, hC.reward, hC.check, hC.getRef, k1]
            refine ⟨rfl, s, r, d, w, o, ?_⟩
            simp only [hC.check, hC.getRef, k1] at h4 h5
            simp [Env.fire, h4, h5]
          · cases h
        · cases h
      · cases h
    · cases h

theorem counter_run {C : Comps σ A S R O K} (hC : CountsSteps C) (env : Env σ A S R O K) (ops : List (Op σ A))
    (hops : ∀ op ∈ ops, ∀ f, op = .setRef f ∨ op = .setReward f → ∀ c, C.psK (f c) = C.psK c) (n : Option ℕ)
    (hn : ∀ k, n = some k → C.psK env.comp = k) :
    ∀ k, (Core.run C env ops).2.foldl (fun n h => match h with
      | (.reset _, _) => some 0
      | (.step _, .step (.done _)) => n.map (· + 1)
      | (.step _, .step (.raised _)) => none
      | _ => n) n = some k → C.psK (Core.run C env ops).1.comp = k := by
  induction ops generalizing env n with
  | nil => exact hn
  | cons op ops ih =>
    simp only [Core.run, List.foldl_cons]
    apply ih _ (fun o ho => hops o (by simp [ho]))
    cases op with
    | setRef f => intro k hk; simp only [Core.apply] at hk ⊢; rw [hops (.setRef f) (by simp) f (Or.inl rfl)]; exact hn k hk
    | setReward f => intro k hk; simp only [Core.apply] at hk ⊢; rw [hops (.setReward f) (by simp) f (Or.inr rfl)]; exact hn k hk
    | close => intro k hk; simp only [Core.apply] at hk ⊢; rw [counter_fire hC]; exact hn k hk
    | reset s =>
      intro k hk
      simp only [Core.apply] at hk ⊢
      rw [counter_reset hC]
      exact (Option.some.inj hk)
    | step a =>
      intro k hk
      by_cases ht : env.terminated = true
      · simp only [Core.apply, Env.step, ht, if_true] at hk ⊢
        exact hn k hk
      · simp only [Core.apply, Env.step, if_neg ht] at hk ⊢
        cases hb : (env.stepBody C a).2 with
        | error e => simp [hb] at hk
        | ok x =>
          simp only [hb, Option.map_eq_some_iff] at hk
          obtain ⟨j, hj, rfl⟩ := hk
          show C.psK (env.stepBody C a).1.comp = j + 1
          rw [(counter_body hC env a hb).1, hn j hj]

/-- C03 (step numbers, with exceptions): if no step since the last reset has raised, callbacks get in `on_step_begin` the number of
steps executed since the last reset, and in `on_step_end` (like the reward function) one more. -/
theorem c03_numbers {C : Comps σ A S R O K} (hC : CountsSteps C) (c : σ) (h0 : C.psK c = 0) (ops : List (Op σ A))
    (hops : ∀ op ∈ ops, ∀ f, op = .setRef f ∨ op = .setReward f → ∀ c, C.psK (f c) = C.psK c) (n : ℕ)
    (hn : executed (Core.run C (Env.init C c) ops).2 = some n) (a : A) (res : Core.StepResult S O K)
    (hd : ((Core.run C (Env.init C c) ops).1.step C a).2 = .done res) :
    ∃ s r d w o, ((Core.run C (Env.init C c) ops).1.step C a).1.log =
      (Core.run C (Env.init C c) ops).1.log ++
        ((List.range C.nCb).map (fun i => .cb i (.stepBegin n a)) ++
        ([.simulate a (.ok s), .getRef s (.ok r), .check s (.ok d), .reward s r (n + 1) a d (.ok w), .refObs s (.ok o)] ++
        (List.range C.nCb).map (fun i => .cb i (.stepEnd (n + 1) s r w res.terminated)))) := by
  have hk := counter_run hC (Env.init C c) ops hops (some 0)
    (fun k hk => by rw [Env.init, counter_fire hC]; simpa using h0.trans (Option.some.inj hk)) n hn
  generalize (Core.run C (Env.init C c) ops).1 = env at hk hd
  simp only [Env.step] at hd ⊢
  split at hd
  · simp at hd
  · rename_i ht
    rw [if_neg ht]
    cases hb : (env.stepBody C a).2 with
    | error e => simp [hb] at hd
    | ok x =>
      simp only [hb, Env.StepOut.done.injEq] at hd
      subst hd
      have := (counter_body hC env a hb).2
      rw [hk] at this
      exact this

/-- What a step number means does not depend on `physical_system.k` being right after a step that raised: only a reset makes it certain
again. -/
theorem executed_reset (hist : List (Op σ A × Out S O K)) (n : ℕ) (o : Out S O K) :
    executed (hist ++ [(.reset n, o)]) = some 0 := by simp [executed]

/-- The example environment, but the simulation raises for negative actions, and has counted then. -/
def fragile : Comps (ℕ × ℚ) ℚ ℚ ℚ ℚ ℚ :=
  { demo with simulate := fun c a => if a < 0 then ((c.1 + 1, c.2), .error .value) else ((c.1 + 1, c.2 + a), .ok (c.2 + a)) }

theorem fragile_counts : CountsSteps fragile where
  psReset _ := rfl
  refReset _ _ := rfl
  rewReset _ _ _ := rfl
  simulate c a s h := by simp only [fragile] at h ⊢; split <;> rfl
  getRef _ _ := rfl
  check _ _ := rfl
  reward _ _ _ _ _ _ := rfl
  refObs _ _ := rfl
  onCb _ _ _ := rfl

/-- A history to which `c03_numbers` applies although a call has raised, and in which the next step is executed. -/
example : executed (Core.run fragile (Env.init fragile (0, 0)) [.reset 7, .step (-1), .reset 7, .step (1 / 2)]).2 = some 1 ∧
    ∃ r, ((Core.run fragile (Env.init fragile (0, 0)) [.reset 7, .step (-1), .reset 7, .step (1 / 2)]).1.step fragile 1).2 = .done r := by
  constructor
  · norm_num [Core.run, Core.apply, Env.init, Env.step, Env.stepBody, Env.reset, Env.fire, Env.call, Call.bind, fragile, demo, executed,
      List.range, List.range.loop]
  · norm_num [Core.run, Core.apply, Env.init, Env.step, Env.stepBody, Env.reset, Env.fire, Env.call, Call.bind, fragile, demo,
      List.range, List.range.loop]

/-- Without the condition on the steps since the last reset the statement is wrong: a simulation that raises may have counted. -/
example : executed (Core.run fragile (Env.init fragile (0, 0)) [.reset 7, .step (-1)]).2 = none ∧
    stepsSinceReset (Core.run fragile (Env.init fragile (0, 0)) [.reset 7, .step (-1)]).2 = 0 ∧
    fragile.psK (Core.run fragile (Env.init fragile (0, 0)) [.reset 7, .step (-1)]).1.comp = 1 := by
  norm_num [Core.run, Core.apply, Env.init, Env.step, Env.stepBody, Env.reset, Env.fire, Env.call, Call.bind, fragile, demo, executed,
    stepsSinceReset, List.range, List.range.loop]

end counting

section assembled

variable {Y U A C S P G τ H : Type}

/-- The assembled environments obey the counter law, whatever their components do. -/
theorem assembled_counts (c : Setup Y U A S C P G τ) (w : Reward.Wse String) (m : Constr.Monitor (List ℝ) ℝ) (idx : List ℕ) :
    CountsSteps (comps c w m idx) where
  psReset _ := rfl
  refReset _ _ := rfl
  rewReset _ _ _ := rfl
  simulate x a s h := simulate_k (Prod.ext rfl h)
  getRef _ _ := rfl
  check _ _ := rfl
  reward _ _ _ _ _ _ := rfl
  refObs _ _ := rfl
  onCb _ _ _ := rfl

/-- C03 (assembled environments): whatever the physical system, the reference generator, the reward function and the constraints are,
and whichever actions were taken and calls have raised before: if no step since the last reset has raised, the callbacks and the reward
function get the number of steps executed since the last reset. -/
theorem c03_assembled {c : Setup Y U A S C P G τ} {mods : Core.Comps (World S C P G τ) A (List ℝ) (List ℝ) (List ℝ) ℝ}
    (hm : build c = .ok mods) (x : World S C P G τ) (hx : x.sys.k = 0) (ops : List (Core.Op (World S C P G τ) A))
    (hops : ∀ f, .setRef f ∉ ops ∧ .setReward f ∉ ops) (n : ℕ)
    (hn : executed (Core.run mods (Core.Env.init mods x) ops).2 = some n) (a : A) (res : Core.StepResult (List ℝ) (List ℝ) ℝ)
    (hd : ((Core.run mods (Core.Env.init mods x) ops).1.step mods a).2 = .done res) :
    ∃ s r d w o, ((Core.run mods (Core.Env.init mods x) ops).1.step mods a).1.log =
      (Core.run mods (Core.Env.init mods x) ops).1.log ++
        ((List.range c.nCb).map (fun i => .cb i (.stepBegin n a)) ++
        ([.simulate a (.ok s), .getRef s (.ok r), .check s (.ok d), .reward s r (n + 1) a d (.ok w), .refObs s (.ok o)] ++
        (List.range c.nCb).map (fun i => .cb i (.stepEnd (n + 1) s r w res.terminated)))) := by
  unfold build at hm
  cases hmo : modules c with
  | error e => simp [hmo, Except.map] at hm
  | ok t =>
    obtain ⟨w, mo, idx⟩ := t
    simp only [hmo, Except.map, Except.ok.injEq] at hm
    subst hm
    refine c03_numbers (assembled_counts c w mo idx) x hx ops (fun op hop f hf => ?_) n hn a res hd
    rcases hf with rfl | rfl
    · exact ((hops f).1 hop).elim
    · exact ((hops f).2 hop).elim

theorem executed_unraised {σ S O K : Type} (h : List (Core.Op σ A × Core.Out S O K))
    (hr : ∀ x ∈ h, (∃ a, x.1 = .step a) → ¬ Raised x.2) : executed h = some (stepsSinceReset h) := by
  unfold executed stepsSinceReset
  have key : ∀ (f : Option ℕ → Core.Op σ A × Core.Out S O K → Option ℕ) (g : ℕ → Core.Op σ A × Core.Out S O K → ℕ),
      (∀ x ∈ h, ∀ n, f (some n) x = some (g n x)) → ∀ n, h.foldl f (some n) = some (h.foldl g n) := by
    intro f g
    clear hr
    induction h with
    | nil => exact fun _ _ => rfl
    | cons x h ih =>
      intro hx n
      rw [List.foldl_cons, List.foldl_cons, hx x List.mem_cons_self]
      exact ih (fun y hy => hx y (List.mem_cons_of_mem _ hy)) _
  refine key _ _ (fun x hx n => ?_) 0
  replace hx := hr x hx
  obtain ⟨op, out⟩ := x
  cases op <;> cases out <;> try rfl
  rename_i r
  cases r <;> try rfl
  exact (hx ⟨_, rfl⟩ trivial).elim

/-- C03 (default environments): every environment of the package with its default converter and reference generator.  In every history
of resets and actions of the action space, every step that is not rejected is executed, and the callbacks get in `on_step_begin` the
number of steps executed since the last reset, and in `on_step_end` (like the reward function) one more. -/
theorem c03_default {R : Rng H} (hR : RngOk R) (m : Motor) {name : String} {d : Defaults} (hd : make m.envId = some (name, d))
    {D : Drive} (hD : Drives d.motor D) {pw : Power A C} {conv : C} {space : A → Prop}
    (hpw : Powered d.tau d.action d.converter A C pw conv space) (p : Parts ℝ D.Y D.U A S C P) (hu : Uses p pw) (hs : Shaped p D.shape)
    (limits nominal : List ℝ) (hl : limits.length = (stateNames d.motor).length)
    (hn : NominalOk d.motor limits nominal (d.references.list.map (·.state)))
    (start : G → G × D.Y) (hstart : ∀ g, D.shape (start g).2) (seedSystem : ℕ → G → G)
    {gen : RefGen τ ℝ} {new : τ → Prop} {reseeded : τ → τ → Prop} (hg : Generates R d.motor limits nominal d.references τ gen new reseeded)
    (seedRef : ℕ → τ → τ) (hseed : ∀ n s, reseeded s (seedRef n s)) (lower : String → String)
    (hlower : ∀ n ∈ stateNames d.motor, lower n = n) (nCb : ℕ) (x : World S C P G τ) (hx : x.sys.conv = conv) (hf : new x.ref)
    (hk : x.sys.k = 0) :
    ∃ mods, build (Registry.setup d p (D.frame A) D.rep limits start seedSystem gen seedRef lower nCb) = .ok mods ∧
      ∀ ops : List (Core.Op (World S C P G τ) A), (∀ op ∈ ops, Proper space op) → ∀ a, space a →
        ((Core.run mods (Core.Env.init mods x) ops).1.step mods a).2 = .rejected ∨
        ∃ res s r d w o, ((Core.run mods (Core.Env.init mods x) ops).1.step mods a).2 = .done res ∧
          ((Core.run mods (Core.Env.init mods x) ops).1.step mods a).1.log =
          (Core.run mods (Core.Env.init mods x) ops).1.log ++
            ((List.range nCb).map (fun i => .cb i (.stepBegin (stepsSinceReset (Core.run mods (Core.Env.init mods x) ops).2) a)) ++
            ([.simulate a (.ok s), .getRef s (.ok r), .check s (.ok d),
              .reward s r (stepsSinceReset (Core.run mods (Core.Env.init mods x) ops).2 + 1) a d (.ok w), .refObs s (.ok o)] ++
            (List.range nCb).map (fun i =>
              .cb i (.stepEnd (stepsSinceReset (Core.run mods (Core.Env.init mods x) ops).2 + 1) s r w res.terminated)))) := by
  obtain ⟨mods, hb, hc⟩ := c115_environment hR m hd hD hpw p hu hs limits nominal hl hn start hstart seedSystem hg seedRef hseed lower hlower
    nCb x hx hf hk
  refine ⟨mods, hb, fun ops hops a ha => ?_⟩
  have h1 := conforms_unraised _ _ (hc ops hops)
  have h2 := conforms_unraised _ _ (hc (ops ++ [.step a]) (fun op hop => by
    rcases List.mem_append.1 hop with h | h
    · exact hops op h
    · rw [List.mem_singleton.1 h]
      exact ha))
  rw [run_concat] at h2
  have h2 := h2 (.step a, .step ((Core.run mods (Core.Env.init mods x) ops).1.step mods a).2)
    (List.mem_append_right _ (by simp [Core.run, Core.apply])) (Or.inr ⟨a, rfl⟩)
  have hn := executed_unraised _ fun y hy hs => h1 y hy (Or.inr hs)
  have key := fun res => c03_assembled hb x hk ops (fun f => ⟨fun h => hops _ h, fun h => hops _ h⟩) _ hn a res
  cases hres : ((Core.run mods (Core.Env.init mods x) ops).1.step mods a).2 with
  | rejected => exact Or.inl rfl
  | raised e => rw [hres] at h2; exact (h2 trivial).elim
  | done res =>
    right
    obtain ⟨s, r, d, w, o, hlog⟩ := key res hres
    exact ⟨res, s, r, d, w, o, rfl, hlog⟩

end assembled

end

end GEM.Props
