import Verif.Model.ClosedLoop
import Verif.Props.Control
import Verif.Props.Counting
import Verif.Props.Loop

/-!
# C122: controlled environments run through
-/

set_option linter.unusedSectionVars false

namespace GEM.Props

open GEM GEM.Sys GEM.Refs GEM.Assembly GEM.Registry

noncomputable section

/-! ## The loop with exceptions and the loop without -/

section trace

open GEM.Core (Comps Env Op Out)

variable {σ κ A S R O K : Type} [LE K] [One K] [DecidableLE K]

/-- The environment and the controller as total functions (Model/Loop.lean): what they answer where they do not raise.  The state of the
environment includes the number of the next reset. -/
def asTotal (C : Comps σ A S R O K) (q : Closed.Controller κ (S × O) A) (seeds : ℕ → ℕ) (o0 : S × O) (a0 : A) :
    Run.Parts (Env σ A S R O K × ℕ) κ (S × O) A where
  envReset e := (((e.1.reset C (seeds e.2)).1, e.2 + 1), match (e.1.reset C (seeds e.2)).2 with | .ok o => o | .error _ => o0)
  envStep e a := (((e.1.step C a).1, e.2), match (e.1.step C a).2 with
    | .done r => (r.obs, r.terminated || r.truncated)
    | _ => (o0, true))
  ctlReset := q.reset
  control c o := ((q.control c o).1, match (q.control c o).2 with | .ok a => a | .error _ => a0)

theorem loop_trace (C : Comps σ A S R O K) (q : Closed.Controller κ (S × O) A) (limit : Option ℕ) (seeds : ℕ → ℕ) (o0 : S × O) (a0 : A)
    (n : ℕ) : ∀ (i : ℕ) (env : Env σ A S R O K) (ctl : κ) (obs : S × O) (count : ℕ) (l : List (Run.Ev (S × O))),
      (Closed.loop C q limit seeds n i env ctl obs count).2 = .ok l →
      l = Run.loop (asTotal C q seeds o0 a0) limit n (env, i) ctl obs count := by
  induction n with
  | zero =>
    intro i env ctl obs count l h
    simp only [Closed.loop, Except.ok.injEq] at h
    rw [← h, Run.loop]
  | succ n ih =>
    intro i env ctl obs count l h
    simp only [Closed.loop] at h
    cases hc : (q.control ctl obs).2 with
    | error e => simp only [hc] at h; cases h
    | ok a =>
      simp only [hc] at h
      cases hs : (env.step C a).2 with
      | rejected => simp only [hs] at h; cases h
      | raised e => simp only [hs] at h; cases h
      | done r =>
        simp only [hs] at h
        have e1 : (asTotal C q seeds o0 a0).control ctl obs = ((q.control ctl obs).1, a) := by simp only [asTotal, hc]
        have e2 : (asTotal C q seeds o0 a0).envStep (env, i) a = (((env.step C a).1, i), r.obs, r.terminated || r.truncated) := by
          simp only [asTotal, hs]
        simp only [Run.loop, e1, e2]
        by_cases hr : ((r.terminated || r.truncated) || Run.reached limit count) = true
        · rw [if_pos hr] at h
          rw [if_pos hr]
          cases hx : ((env.step C a).1.reset C (seeds i)).2 with
          | error e => simp only [hx] at h; cases h
          | ok o =>
            simp only [hx] at h
            have e3 : (asTotal C q seeds o0 a0).envReset ((env.step C a).1, i) = ((((env.step C a).1.reset C (seeds i)).1, i + 1), o) := by
              simp only [asTotal, hx]
            rw [e3]
            cases hl : (Closed.loop C q limit seeds n (i + 1) ((env.step C a).1.reset C (seeds i)).1 (q.reset (q.control ctl obs).1)
                o (0 + 1)).2 with
            | error e => rw [hl] at h; cases h
            | ok l' =>
              rw [hl] at h
              simp only [Except.map, Except.ok.injEq] at h
              rw [← h, ih _ _ _ _ _ _ hl]
              rfl
        · rw [if_neg hr] at h
          rw [if_neg hr]
          cases hl : (Closed.loop C q limit seeds n i (env.step C a).1 (q.control ctl obs).1 r.obs (count + 1)).2 with
          | error e => simp only [hl] at h; cases h
          | ok l' =>
            simp only [hl, Except.map, Except.ok.injEq] at h
            rw [← h, ih _ _ _ _ _ _ hl]

/-- C122 (trace): if `control_environment` ends without an exception, then what has happened is what the loop of C57 describes, for all
environments, controllers and random numbers. -/
theorem c122_trace (C : Comps σ A S R O K) (q : Closed.Controller κ (S × O) A) (limit : Option ℕ) (seeds : ℕ → ℕ) (o0 : S × O) (a0 : A)
    (n : ℕ) (env : Env σ A S R O K) (ctl : κ) (l : List (Run.Ev (S × O)))
    (h : (Closed.controlEnvironment C q limit seeds n env ctl).2 = .ok l) :
    l = Run.controlEnvironment (asTotal C q seeds o0 a0) limit n (env, 0) ctl := by
  simp only [Closed.controlEnvironment] at h
  cases hx : (env.reset C (seeds 0)).2 with
  | error e => simp only [hx] at h; cases h
  | ok o =>
    simp only [hx] at h
    have e3 : (asTotal C q seeds o0 a0).envReset (env, 0) = (((env.reset C (seeds 0)).1, 1), o) := by
      simp only [asTotal, hx]
    simp only [Run.controlEnvironment, e3]
    cases hl : (Closed.loop C q limit seeds n 1 (env.reset C (seeds 0)).1 (q.reset ctl) o 0).2 with
    | error e => rw [hl] at h; cases h
    | ok l' =>
      rw [hl] at h
      simp only [Except.map, Except.ok.injEq] at h
      rw [← h, loop_trace C q limit seeds o0 a0 _ _ _ _ _ _ _ hl]
      rfl

/-- Number of steps in a trace. -/
def stepsIn {o : Type} (l : List (Run.Ev o)) : ℕ := l.countP fun e => match e with | .step _ _ _ => true | _ => false

end trace

/-! ## No exceptions -/

section through

variable {Y U A S C P G τ κ : Type}

/-- The controller answers: after a reset (`form` → `ready`), every state with `m` values and every admissible reference gives an
action of the action space. -/
structure Commands (q : Closed.Controller κ (List ℝ × List ℝ) A) (form ready : κ → Prop) (space : A → Prop) (m : ℕ)
    (ref : List ℝ → Prop) : Prop where
  reset : ∀ c, form c → ready (q.reset c)
  control : ∀ c s r, ready c → s.length = m → ref r → ∃ c' a, q.control c (s, r) = (c', .ok a) ∧ space a ∧ ready c'
  form : ∀ c, ready c → form c

/-- whether an episode has ended -/
def endedAfter {σ : Type} (b : Bool) : List (Core.Op σ A × Core.Out (List ℝ) (List ℝ) ℝ) → Bool
  | [] => b
  | (.reset _, _) :: h => endedAfter false h
  | (.step _, .step (.done r)) :: h => endedAfter (b || r.terminated) h
  | _ :: h => endedAfter b h

theorem conforms_split {σ : Type} {c : Setup Y U A S C P G τ} {lo hi v : ℝ} (h : List (Core.Op σ A × Core.Out (List ℝ) (List ℝ) ℝ)) :
    ∀ (b : Bool) (h' : List (Core.Op σ A × Core.Out (List ℝ) (List ℝ) ℝ)), Conforms c lo hi v b (h ++ h') →
      Conforms c lo hi v (endedAfter b h) h' := by
  induction h with
  | nil => intro b h' hc; exact hc
  | cons x h ih =>
    intro b h' hc
    obtain ⟨op, out⟩ := x
    rw [List.cons_append] at hc
    cases op with
    | reset n => exact ih _ _ hc.2
    | step a =>
      cases b with
      | true =>
        obtain ⟨rfl, h2⟩ := hc
        exact ih _ _ h2
      | false =>
        obtain ⟨r, rfl, -, h2⟩ := hc
        simp only [endedAfter, Bool.false_or]
        exact ih _ _ h2
    | setRef f => cases b <;> (cases out <;> exact ih _ _ hc)
    | setReward f => cases b <;> (cases out <;> exact ih _ _ hc)
    | close => cases b <;> (cases out <;> exact ih _ _ hc)

theorem ended_split {σ : Type} (h : List (Core.Op σ A × Core.Out (List ℝ) (List ℝ) ℝ)) :
    ∀ (b : Bool) (h' : List (Core.Op σ A × Core.Out (List ℝ) (List ℝ) ℝ)), endedAfter b (h ++ h') = endedAfter (endedAfter b h) h' := by
  induction h with
  | nil => intro b h'; rfl
  | cons x h ih =>
    intro b h'
    obtain ⟨op, out⟩ := x
    rw [List.cons_append]
    cases op with
    | reset n => exact ih _ _
    | step a =>
      cases out with
      | step r => cases r <;> exact ih _ _
      | _ => exact ih _ _
    | _ => cases out <;> exact ih _ _

variable {mods : Core.Comps (World S C P G τ) A (List ℝ) (List ℝ) (List ℝ) ℝ} {c : Setup Y U A S C P G τ} {lo hi v : ℝ} {space : A → Prop}
  {x : World S C P G τ}

/-- The next call after a history. -/
theorem next_call (hc : ∀ ops : List (Core.Op (World S C P G τ) A), (∀ op ∈ ops, Proper space op) →
      Conforms c lo hi v true (Core.run mods (Core.Env.init mods x) ops).2)
    (ops : List (Core.Op (World S C P G τ) A)) (hops : ∀ op ∈ ops, Proper space op) (op : Core.Op (World S C P G τ) A)
    (hop : Proper space op) :
    Conforms c lo hi v (endedAfter true (Core.run mods (Core.Env.init mods x) ops).2)
      [(op, (Core.apply mods (Core.run mods (Core.Env.init mods x) ops).1 op).2)] ∧
    (Core.run mods (Core.Env.init mods x) (ops ++ [op])).1 = (Core.apply mods (Core.run mods (Core.Env.init mods x) ops).1 op).1 ∧
    endedAfter true (Core.run mods (Core.Env.init mods x) (ops ++ [op])).2
      = endedAfter (endedAfter true (Core.run mods (Core.Env.init mods x) ops).2)
        [(op, (Core.apply mods (Core.run mods (Core.Env.init mods x) ops).1 op).2)] := by
  have h := hc (ops ++ [op]) (fun o ho => by
    rcases List.mem_append.1 ho with ho | ho
    · exact hops o ho
    · rw [List.mem_singleton.1 ho]; exact hop)
  rw [run_concat] at h ⊢
  refine ⟨conforms_split _ _ _ h, rfl, ended_split _ _ _⟩

theorem next_reset (hc : ∀ ops : List (Core.Op (World S C P G τ) A), (∀ op ∈ ops, Proper space op) →
      Conforms c lo hi v true (Core.run mods (Core.Env.init mods x) ops).2)
    (ops : List (Core.Op (World S C P G τ) A)) (hops : ∀ op ∈ ops, Proper space op) (n : ℕ) :
    ∃ s o, ((Core.run mods (Core.Env.init mods x) ops).1.reset mods n).2 = .ok o ∧ Shows c s o ∧
      (Core.run mods (Core.Env.init mods x) (ops ++ [.reset n])).1 = ((Core.run mods (Core.Env.init mods x) ops).1.reset mods n).1 ∧
      endedAfter true (Core.run mods (Core.Env.init mods x) (ops ++ [.reset n])).2 = false := by
  obtain ⟨h1, h2, h3⟩ := next_call hc ops hops (.reset n) trivial
  obtain ⟨⟨s, o, e, hs⟩, -⟩ := h1
  refine ⟨s, o, ?_, hs, h2, h3⟩
  simp only [Core.apply] at e
  cases hr : ((Core.run mods (Core.Env.init mods x) ops).1.reset mods n).2 with
  | error y => simp [hr] at e
  | ok y =>
    simp only [hr, Core.Out.resetOk.injEq] at e
    rw [e]

theorem next_step (hc : ∀ ops : List (Core.Op (World S C P G τ) A), (∀ op ∈ ops, Proper space op) →
      Conforms c lo hi v true (Core.run mods (Core.Env.init mods x) ops).2)
    (ops : List (Core.Op (World S C P G τ) A)) (hops : ∀ op ∈ ops, Proper space op)
    (he : endedAfter true (Core.run mods (Core.Env.init mods x) ops).2 = false) (a : A) (ha : space a) :
    ∃ r s, ((Core.run mods (Core.Env.init mods x) ops).1.step mods a).2 = .done r ∧ Shows c s r.obs ∧
      (Core.run mods (Core.Env.init mods x) (ops ++ [.step a])).1 = ((Core.run mods (Core.Env.init mods x) ops).1.step mods a).1 ∧
      endedAfter true (Core.run mods (Core.Env.init mods x) (ops ++ [.step a])).2 = r.terminated := by
  obtain ⟨h1, h2, h3⟩ := next_call hc ops hops (.step a) ha
  rw [he] at h1 h3
  obtain ⟨r, e, ⟨s, hs, -⟩, -⟩ := h1
  refine ⟨r, s, ?_, hs, h2, ?_⟩
  · simpa only [Core.apply, Core.Out.step.injEq] using e
  · rw [h3, e]
    rfl

/-- The loop runs through. -/
theorem loop_through (hc : ∀ ops : List (Core.Op (World S C P G τ) A), (∀ op ∈ ops, Proper space op) →
      Conforms c lo hi v true (Core.run mods (Core.Env.init mods x) ops).2)
    {q : Closed.Controller κ (List ℝ × List ℝ) A} {form ready : κ → Prop} {ref : List ℝ → Prop}
    (hq : Commands q form ready space (shown c).length ref) (href : ∀ r, Within c.gen.low c.gen.high r → ref r)
    (limit : Option ℕ) (seeds : ℕ → ℕ) (n : ℕ) : ∀ (i : ℕ) (ops : List (Core.Op (World S C P G τ) A)) (_ : ∀ op ∈ ops, Proper space op)
      (_ : endedAfter true (Core.run mods (Core.Env.init mods x) ops).2 = false) (ctl : κ) (_ : ready ctl) (s : List ℝ)
      (obs : List ℝ × List ℝ) (_ : Shows c s obs) (count : ℕ),
      ∃ more ctl' l, Closed.loop mods q limit seeds n i (Core.run mods (Core.Env.init mods x) ops).1 ctl obs count
          = (((Core.run mods (Core.Env.init mods x) (ops ++ more)).1, ctl'), .ok l) ∧ stepsIn l = n ∧ ready ctl' ∧
        ∀ op ∈ more, Proper space op := by
  induction n with
  | zero =>
    intro i ops _ _ ctl hctl s obs _ count
    exact ⟨[], ctl, [], by rw [List.append_nil, Closed.loop], rfl, hctl, by simp⟩
  | succ n ih =>
    intro i ops hops he ctl hctl s obs hobs count
    obtain ⟨c1, a, e1, ha, hc1⟩ := hq.control ctl obs.1 obs.2 hctl (by rw [hobs.2.1, List.length_map]) (href _ hobs.2.2)
    obtain ⟨r, s', f1, f2, f3, f4⟩ := next_step hc ops hops he a ha
    have hops1 : ∀ op ∈ ops ++ [Core.Op.step a], Proper space op := fun o ho => by
      rcases List.mem_append.1 ho with ho | ho
      · exact hops o ho
      · rw [List.mem_singleton.1 ho]; exact ha
    simp only [Closed.loop, e1, f1]
    by_cases hr : ((r.terminated || r.truncated) || Run.reached limit count) = true
    · rw [if_pos hr]
      obtain ⟨s2, o, g1, g2, g3, g4⟩ := next_reset hc _ hops1 (seeds i)
      rw [f3] at g1 g3
      have hops2 : ∀ op ∈ (ops ++ [Core.Op.step a]) ++ [Core.Op.reset (seeds i)], Proper space op := fun op ho => by
        rcases List.mem_append.1 ho with ho | ho
        · exact hops1 op ho
        · rw [List.mem_singleton.1 ho]; trivial
      obtain ⟨more, ctl', l, k1, k2, k3, k4⟩ := ih (i + 1) _ hops2 g4 (q.reset c1) (hq.reset c1 (hq.form c1 hc1)) s2 o g2 (0 + 1)
      rw [g3] at k1
      refine ⟨[Core.Op.step a, .reset (seeds i)] ++ more, ctl', .step obs r.obs (r.terminated || r.truncated) :: .envReset o :: .ctlReset :: l, ?_, ?_, k3, ?_⟩
      · simp only [g1, k1, Except.map]
        simp only [List.append_assoc, List.cons_append, List.nil_append]
      · simp [stepsIn] at k2 ⊢
        exact k2
      · intro op ho
        rcases List.mem_append.1 ho with ho | ho
        · simp only [List.mem_cons, List.not_mem_nil, or_false] at ho
          rcases ho with rfl | rfl
          · exact ha
          · trivial
        · exact k4 op ho
    · rw [if_neg hr]
      have hrt : r.terminated = false := by
        simp only [Bool.not_eq_true, Bool.or_eq_false_iff] at hr
        exact hr.1.1
      obtain ⟨more, ctl', l, k1, k2, k3, k4⟩ := ih i _ hops1 (f4.trans hrt) c1 hc1 s' r.obs f2 (count + 1)
      rw [f3] at k1
      refine ⟨[Core.Op.step a] ++ more, ctl', .step obs r.obs (r.terminated || r.truncated) :: l, ?_, ?_, k3, ?_⟩
      · simp only [k1, Except.map]
        simp only [List.append_assoc]
      · simp [stepsIn] at k2 ⊢
        exact k2
      · intro op ho
        rcases List.mem_append.1 ho with ho | ho
        · rw [List.mem_singleton.1 ho]; exact ha
        · exact k4 op ho

/-- C122 (loop): an environment that always answers (C114, C115) and a controller that answers with actions of the action space.
Whatever has been done with the environment before, `control_environment` executes all its steps without an exception, for every
number of steps, every maximum length of the episodes and all random numbers; its calls are resets and steps with actions of the action
space, so that the environment and the controller can be used afterwards. -/
theorem c122_loop (hc : ∀ ops : List (Core.Op (World S C P G τ) A), (∀ op ∈ ops, Proper space op) →
      Conforms c lo hi v true (Core.run mods (Core.Env.init mods x) ops).2)
    {q : Closed.Controller κ (List ℝ × List ℝ) A} {form ready : κ → Prop} {ref : List ℝ → Prop}
    (hq : Commands q form ready space (shown c).length ref) (href : ∀ r, Within c.gen.low c.gen.high r → ref r)
    (limit : Option ℕ) (seeds : ℕ → ℕ) (n : ℕ) (ops : List (Core.Op (World S C P G τ) A)) (hops : ∀ op ∈ ops, Proper space op)
    (ctl : κ) (hctl : form ctl) :
    ∃ more ctl' l, Closed.controlEnvironment mods q limit seeds n (Core.run mods (Core.Env.init mods x) ops).1 ctl
        = (((Core.run mods (Core.Env.init mods x) (ops ++ more)).1, ctl'), .ok l) ∧ stepsIn l = n ∧ form ctl' ∧
      ∀ op ∈ more, Proper space op := by
  obtain ⟨s, o, g1, g2, g3, g4⟩ := next_reset hc ops hops (seeds 0)
  have hops1 : ∀ op ∈ ops ++ [Core.Op.reset (seeds 0)], Proper space op := fun op ho => by
    rcases List.mem_append.1 ho with ho | ho
    · exact hops op ho
    · rw [List.mem_singleton.1 ho]; trivial
  obtain ⟨more, ctl', l, k1, k2, k3, k4⟩ := loop_through hc hq href limit seeds n 1 _ hops1 g4 (q.reset ctl) (hq.reset ctl hctl) s o g2 0
  rw [g3] at k1
  refine ⟨[Core.Op.reset (seeds 0)] ++ more, ctl', .envReset o :: .ctlReset :: l, ?_, ?_, hq.form _ k3, ?_⟩
  · simp only [Closed.controlEnvironment, g1, k1, Except.map]
    simp only [List.append_assoc]
  · simp [stepsIn] at k2 ⊢
    exact k2
  · intro op ho
    rcases List.mem_append.1 ho with ho | ho
    · rw [List.mem_singleton.1 ho]; trivial
    · exact k4 op ho

end through

/-! ## The cascades -/

section cascades

open GEM.Ctl GEM.Closed

variable {κ ρ : Type} {m n k j : ℕ}

/-- A cascade answers: after a reset it has voltages for all states and all admissible references. -/
structure Computes (I : Inner κ m k j) (form ready : κ → Prop) (ref : (Fin k → ℝ) → Prop) : Prop where
  reset : ∀ c, form c → ready (I.reset c)
  control : ∀ c s r, ready c → ref r → ∃ c' u, I.control c s r = (c', .ok u) ∧ ready c'
  form : ∀ c, ready c → form c

/-- the integrator, if there is one, has the length of the gains -/
def Integrates (b : Base n m ℝ) : Prop := b.kind.integrates = true → b.integrator.isSome = true

theorem base_reset (b : Base n m ℝ) : Integrates b.reset := by
  intro h
  unfold Base.reset at h ⊢
  split_ifs with hk
  · rfl
  · rw [if_neg hk] at h; exact absurd h hk

theorem base_control {b : Base n m ℝ} (h : Integrates b) (s : Fin m → ℝ) (r : Fin n → ℝ) : Integrates (b.control s r).1 := by
  unfold Base.control
  unfold Integrates at h ⊢
  cases hk : b.kind <;> simp_all

theorem base_integrate {b : Base n m ℝ} (h : Integrates b) (d : Fin n → ℝ) :
    ∃ b', b.integrate d = (b', .ok ()) ∧ Integrates b' := by
  unfold Base.integrate
  by_cases hk : b.kind.integrates = true
  · obtain ⟨v, hv⟩ := Option.isSome_iff_exists.1 (h hk)
    rw [if_pos hk, hv]
    exact ⟨_, rfl, fun _ => rfl⟩
  · rw [if_neg hk]
    exact ⟨b, rfl, h⟩

theorem current_control {c : Current n m ℝ} (h : Integrates c.base) (T : (Fin m → ℝ) → (Fin n → ℝ) → (Fin j → ℝ)) (s : Fin m → ℝ)
    (r : Fin n → ℝ) : ∃ c' u, c.control T s r = (c', .ok u) ∧ Integrates c'.base := by
  obtain ⟨b, e, hb⟩ := base_integrate (base_control h s r) (antiWindup c.tau c.idx s r (c.clipping.difference (c.raw s r)))
  simp only [Current.control, e, Except.map]
  exact ⟨_, _, rfl, hb⟩

theorem current_computes (T : (Fin m → ℝ) → (Fin n → ℝ) → (Fin j → ℝ)) :
    Computes (currentInner T) (fun _ => True) (fun c => Integrates c.base) (fun _ => True) where
  reset c _ := base_reset c.base
  control c s r h _ := by
    obtain ⟨c', u, e, hc⟩ := current_control h T s r
    simp only [currentInner, Current.controlTop, e]
    exact ⟨_, _, rfl, hc⟩
  form _ _ := trivial

/-- An operation point selection that has currents for these torques. -/
def Selects (ops : Closed.Ops ρ m n) (ref : ℝ → Prop) : Prop := ∀ o s t, ref t → ∃ o' i, ops.select o s t = (o', .ok i)

theorem torque_computes (T : (Fin m → ℝ) → (Fin n → ℝ) → (Fin j → ℝ)) {ops : Closed.Ops ρ m n} {ref : ℝ → Prop} (h : Selects ops ref)
    (cl : Clip n ℝ) :
    Computes (torqueInner T ops cl) (fun _ => True) (fun st => Integrates st.2.base) (fun r => ref (r 0)) where
  reset st _ := base_reset st.2.base
  control st s r hs hr := by
    obtain ⟨o', i, e⟩ := h st.1 s (r 0) hr
    obtain ⟨c', u, e', hc⟩ := current_control hs T s (cl.call i)
    simp only [torqueInner, torqueControl, e, e']
    exact ⟨_, _, rfl, hc⟩
  form _ _ := trivial

theorem speed_computes {I : Inner κ m 1 j} {form ready : κ → Prop} {ref : ℝ → Prop} (h : Computes I form ready (fun r => ref (r 0)))
    (cl : Clip 1 ℝ) (hcl : ∀ u, ref (cl.call u 0)) :
    Computes (speedInner I) (fun st => st.1.clipping = cl ∧ form st.2)
      (fun st => Integrates st.1.base ∧ st.1.clipping = cl ∧ ready st.2) (fun _ => True) where
  reset st hs := ⟨base_reset st.1.base, hs.1, h.reset _ hs.2⟩
  control st s r hs _ := by
    obtain ⟨h1, h2, h3⟩ := hs
    obtain ⟨b, e, hb⟩ := base_integrate (base_control h1 s r)
      (antiWindup st.1.tau st.1.idx s r (st.1.clipping.difference (st.1.base.control s r).2))
    obtain ⟨c', u, e', hc⟩ := h.control st.2 s (st.1.clipping.call (st.1.base.control s r).2) h3 (by rw [h2]; exact hcl _)
    simp only [speedInner, Speed.control, e, Except.map, e']
    exact ⟨_, _, rfl, hb, h2, hc⟩
  form st hs := ⟨hs.2.1, h.form _ hs.2.2⟩

/-- Adapter, cascade and output stage together. -/
theorem adapter_commands {A : Type} {space : A → Prop} {I : Inner κ m k j} {form ready : κ → Prop} {ref : (Fin k → ℝ) → Prop}
    (h : Computes I form ready ref) (limits : Fin m → ℝ) (refLimits : Fin k → ℝ) {out : (Fin j → ℝ) → Except Err A}
    (hout : ∀ u, ∃ a, out u = .ok a ∧ space a) :
    Commands (adapter limits refLimits I out) form ready space m
      (fun r => r.length = k ∧ ref fun i => vec k r i * refLimits i) where
  reset := h.reset
  control c s r hc hs hr := by
    obtain ⟨c', u, e, hc'⟩ := h.control c (inputStage limits refLimits (vec m s) (vec k r)).1
      (inputStage limits refLimits (vec m s) (vec k r)).2 hc hr.2
    obtain ⟨a, e', ha⟩ := hout u
    refine ⟨c', a, ?_, ha, hc'⟩
    simp only [adapter, hs, hr.1, and_self, if_true, e, Except.bind, e']
  form := h.form

end cascades

/-! ## Controllers of the package for registered environments -/

section registered

open GEM.Ctl GEM.Closed GEM.Conv

variable {κ ρ : Type} {m n k j : ℕ}

/-- the action space that the discrete output stage finds -/
def discSpace : ConvArg → ActionSpace
  | .single .four => .discrete 4
  | .single .b6 => .b6
  | .multi ks => .multi (ks.map fun b => (bridgeKind b).actions)

/-- The output stages of the environments (gem_adapter.py 59–63), for all voltage limits and ranges. -/
inductive Outputs : ActionType → ConvArg → (A : Type) → (j : ℕ) → ((Fin j → ℝ) → Except Err A) → Prop
  | cont {j : ℕ} (arg : ConvArg) (limits : Fin j → ℝ) : Outputs .continuous arg (List ℝ) j (contOut limits)
  | one {j : ℕ} (b : Bridge) (ranges : Fin j → ℝ × ℝ) : Outputs .finite (.single b) ℕ j (discOne (discSpace (.single b)) ranges)
  | many {j : ℕ} (bs : List Bridge) (ranges : Fin j → ℝ × ℝ) :
      Outputs .finite (.multi bs) (List ℕ) j (discMany (discSpace (.multi bs)) ranges)

/-- number of voltages of a converter -/
def voltagesOf : ConvArg → ℕ
  | .single b => (bridgeKind b).dim
  | .multi bs => dims (bs.map bridgeKind)

/-- no three phase bridge -/
def FourOnly : ConvArg → Prop
  | .single b => b = .four
  | .multi bs => ∀ b ∈ bs, b = .four

theorem outputs_answer {tau : ℝ} {a : ActionType} {arg : ConvArg} {A C : Type} {pw : Power A C} {c : C} {space : A → Prop}
    (hpw : Powered tau a arg A C pw c space) {out : (Fin j → ℝ) → Except Err A} (ho : Outputs a arg A j out) (hj : j = voltagesOf arg)
    (h4 : a = .finite → FourOnly arg) (hne : arg ≠ .multi []) (u : Fin j → ℝ) : ∃ x, out u = .ok x ∧ space x := by
  cases ho with
  | cont _ limits =>
    refine ⟨_, rfl, ?_⟩
    cases hpw with
    | continuous b => simpa [voltagesOf] using hj
    | contMulti bs => simpa [voltagesOf] using hj
  | one b ranges =>
    obtain rfl : b = .four := h4 rfl
    subst hj
    cases hpw
    refine ⟨_, rfl, select_lt 4 (by norm_num) _ _ _⟩
  | many bs ranges =>
    have hb : ∀ b ∈ bs, b = Bridge.four := h4 rfl
    have hd : dims (bs.map bridgeKind) = bs.length := by
      unfold dims
      rw [List.map_map, List.map_congr_left (g := fun _ => 1) (fun b h => by rw [hb b h]; rfl)]
      simp
    cases hpw
    have hl : j = bs.length := hj.trans hd
    obtain ⟨x, e, hx⟩ := c52_output_partial (K := ℝ) (discSpace (.multi bs)) (List.ofFn ranges) (List.ofFn u) (by simp)
      (by
        intro h0
        have := congrArg List.length h0
        rw [List.length_ofFn, hl] at this
        exact hne (by rw [List.length_eq_zero_iff.1 this]))
      (Or.inr ⟨_, rfl, by simp [hl], fun x hx => by
        obtain ⟨b, hb', rfl⟩ := List.mem_map.1 hx
        rw [hb b hb']
        decide⟩)
    cases x with
    | one x => exact hx.elim
    | many x =>
      refine ⟨x, by simp only [discMany, e], ?_⟩
      have hx : List.Forall₂ (· < ·) x (bs.map fun b => (bridgeKind b).actions) := hx
      rw [List.forall₂_map_right_iff] at hx
      exact hx.flip

/-- The operation point selections of the DC motors, for all parameters. -/
inductive DcOps (m : ℕ) : MotorType → (n : ℕ) → Closed.Ops Unit m n → Prop
  | series (l : ℝ) (hl : 0 ≤ l) : DcOps m .seriesDc 1 (seriesOps l)
  | shunt (mp : Motor.DcParams ℝ) (iaLimit ieLimit margin : ℝ) (e : Fin m) : DcOps m .shuntDc 1 (shuntOps mp iaLimit ieLimit margin e)
  | extEx (mp : Motor.DcParams ℝ) (e : Fin m) : DcOps m .extExDc 2 (extExOps mp e)
  | permEx (psi : ℝ) : DcOps m .permExDc 1 (permExOps psi)

/-- torques with an operation point -/
def Feasible (t : MotorType) (torque : ℝ) : Prop := t = .seriesDc → 0 ≤ torque

theorem dcOps_select {t : MotorType} {ops : Closed.Ops Unit m n} (h : DcOps m t n ops) : Selects ops (Feasible t) := by
  intro o s x hx
  cases h with
  | series l hl =>
    have : 0 ≤ x / l := div_nonneg (hx rfl) hl
    simp only [seriesOps, GEM.Ops.series, if_pos this]
    exact ⟨_, _, rfl⟩
  | shunt => exact ⟨_, _, rfl⟩
  | extEx => exact ⟨_, _, rfl⟩
  | permEx => exact ⟨_, _, rfl⟩

/-- The lower end of the normalised torque. -/
def torqueLow (t : MotorType) : ℝ := Reward.entry (low t) ((stateNames t).idxOf "torque")

/-- Cascades that `GemController.make` builds, for all gains, limits and margins, all linear base controllers and both settings of
`decoupling`: all tasks of the DC motors; current control of the synchronous motors, with any transformation of the voltages
(abc_transformation.py).  `limit` is the limit of the torque.  The last argument is what the calls of the cascade leave as it is: the
tuned clipping stage of the torque. -/
inductive Cascade (limit : ℝ) (m : ℕ) : MotorType → ControlType → (κ : Type) → (k j : ℕ) → Inner κ m k j → (κ → Prop) → Prop
  | dcCurrent (t : MotorType) (n : ℕ) (ops : Closed.Ops Unit m n) (h : DcOps m t n ops) :
      Cascade limit m t .current (Current n m ℝ) n n (currentInner fun _ u => u) (fun _ => True)
  | dcTorque (t : MotorType) (n : ℕ) (ops : Closed.Ops Unit m n) (h : DcOps m t n ops) (cl : Clip n ℝ) :
      Cascade limit m t .torque (Unit × Current n m ℝ) 1 n (torqueInner (fun _ u => u) ops cl) (fun _ => True)
  | dcSpeed (t : MotorType) (n : ℕ) (ops : Closed.Ops Unit m n) (h : DcOps m t n ops) (cl : Clip n ℝ) (margin : ℝ) (hm : margin ≤ 1) :
      Cascade limit m t .speed (Speed m ℝ × (Unit × Current n m ℝ)) 1 n (speedInner (torqueInner (fun _ u => u) ops cl))
        (fun st => st.1.clipping = .tuneAbsolute (fun _ => limit) (fun _ => torqueLow t) (fun _ => 1) margin ∧ True)
  | pmsm (T : (Fin m → ℝ) → (Fin 2 → ℝ) → (Fin 3 → ℝ)) :
      Cascade limit m .pmsm .current (Current 2 m ℝ) 2 3 (currentInner T) (fun _ => True)
  | synRm (T : (Fin m → ℝ) → (Fin 2 → ℝ) → (Fin 3 → ℝ)) :
      Cascade limit m .synRm .current (Current 2 m ℝ) 2 3 (currentInner T) (fun _ => True)
  | eesm (T : (Fin m → ℝ) → (Fin 3 → ℝ) → (Fin 4 → ℝ)) :
      Cascade limit m .eesm .current (Current 3 m ℝ) 3 4 (currentInner T) (fun _ => True)

theorem torqueLow_series : torqueLow .seriesDc = 0 := by
  have : (stateNames .seriesDc).idxOf "torque" = 1 := by decide
  rw [torqueLow, this]
  simp [low, dcLow, Space.series, Reward.entry]

/-- references for which the cascades have an answer -/
def Answerable (t : MotorType) (task : ControlType) (r : Fin k → ℝ) : Prop := task = .torque → t = .seriesDc → ∀ i, 0 ≤ r i

theorem cascade_computes {limit : ℝ} (hl : 0 ≤ limit) {t : MotorType} {task : ControlType} {I : Inner κ m k j} {form : κ → Prop}
    (h : Cascade limit m t task κ k j I form) : ∃ ready, Computes I form ready (Answerable t task) := by
  have weaken : ∀ {κ : Type} {k j : ℕ} {I : Inner κ m k j} {form ready : κ → Prop} {r r' : (Fin k → ℝ) → Prop},
      Computes I form ready r → (∀ x, r' x → r x) → Computes I form ready r' := fun h hr =>
    ⟨h.reset, fun c s x hc hx => h.control c s x hc (hr x hx), h.form⟩
  cases h with
  | dcCurrent _ n ops h => exact ⟨_, weaken (current_computes _) fun _ _ => trivial⟩
  | dcTorque _ n ops h cl => exact ⟨_, weaken (torque_computes _ (dcOps_select h) cl) fun x hx e => hx rfl e 0⟩
  | dcSpeed _ n ops h cl margin hm =>
    refine ⟨_, weaken (speed_computes (torque_computes _ (dcOps_select h) cl) _ fun u e => ?_) fun _ _ => trivial⟩
    subst e
    have h0 : 0 ≤ limit * (1 - margin) := mul_nonneg hl (by linarith)
    show 0 ≤ GEM.clip (u 0) _ _
    simp only [torqueLow_series, zero_mul, one_mul]
    exact le_min (le_max_right _ _) h0
  | pmsm T => exact ⟨_, weaken (current_computes _) fun _ _ => trivial⟩
  | synRm T => exact ⟨_, weaken (current_computes _) fun _ _ => trivial⟩
  | eesm T => exact ⟨_, weaken (current_computes _) fun _ _ => trivial⟩

/-- A cascade has one reference per controlled state and one voltage per winding, the states of its current control are those of
the environments for current control. -/
theorem cascade_sizes {limit : ℝ} {t : MotorType} {task : ControlType} {I : Inner κ m k j} {form : κ → Prop}
    (h : Cascade limit m t task κ k j I form) : k = (controlled t task).length ∧ j = voltagesOf (converterOf t) := by
  cases h with
  | dcCurrent _ n ops h => cases h <;> exact ⟨rfl, rfl⟩
  | dcTorque _ n ops h cl => cases h <;> exact ⟨rfl, rfl⟩
  | dcSpeed _ n ops h cl margin hm => cases h <;> exact ⟨rfl, rfl⟩
  | pmsm T => exact ⟨rfl, rfl⟩
  | synRm T => exact ⟨rfl, rfl⟩
  | eesm T => exact ⟨rfl, rfl⟩

theorem generates_low {H : Type} {R : Rng H} {t : MotorType} {limits nominal : List ℝ} {arg : RefArg} {τ : Type} {gen : RefGen τ ℝ}
    {new : τ → Prop} {reseeded : τ → τ → Prop} (h : Generates R t limits nominal arg τ gen new reseeded) :
    ∃ cs : List (SubCfg H ℝ), gen.low = cs.map (·.low) ∧ List.Forall₂ (WienerOf R t limits nominal) arg.list cs := by
  cases h with
  | one g c h => exact ⟨[c], rfl, .cons h .nil⟩
  | multiple gs cs h M hM =>
    obtain ⟨-, -, rfl⟩ := multiGen_ok hM
    refine ⟨cs, ?_, h⟩
    simp only [List.flatMap_map, subGen]
    clear h hM
    induction cs with
    | nil => rfl
    | cons c cs ih => simp [ih]

/-- The references of a default environment are answerable. -/
theorem references_answerable {H : Type} {R : Rng H} {mo : Registry.Motor} {d : Defaults} (hmatch : Matches mo d) (hfit : Fitting d)
    {limits nominal : List ℝ} (hn : NominalOk d.motor limits nominal (d.references.list.map (·.state)))
    {τ : Type} {gen : RefGen τ ℝ} {new : τ → Prop} {reseeded : τ → τ → Prop}
    (hg : Generates R d.motor limits nominal d.references τ gen new reseeded)
    (hT : 0 ≤ Reward.entry limits ((stateNames d.motor).idxOf "torque")) (hk : k = (controlled d.motor mo.control).length) (r : List ℝ)
    (hr : Within gen.low gen.high r) :
    r.length = k ∧ Answerable d.motor mo.control (fun i : Fin k => vec k r i *
      Reward.entry limits ((stateNames d.motor).idxOf ((controlled d.motor mo.control).getD i ""))) := by
  obtain ⟨cs, e, hcs⟩ := generates_low hg
  have hst := hmatch.references
  rw [← hmatch.motor] at hst
  have hlen : r.length = k := by
    rw [← hr.1.length_eq, e, List.length_map, ← hcs.length_eq, hk, ← hst, List.length_map]
  refine ⟨hlen, fun h1 h2 i => ?_⟩
  rw [h1] at hst
  simp only [controlled] at hst
  have hk1 : k = 1 := by rw [hk, h1]; rfl
  subst hk1
  obtain rfl : i = 0 := Subsingleton.elim _ _
  refine mul_nonneg ?_ (by rw [h1]; exact hT)
  cases hl : d.references.list with
  | nil => rw [hl] at hst; cases hst
  | cons g gs =>
    rw [hl] at hst hcs
    simp only [List.map_cons, List.cons.injEq] at hst
    cases hcs with
    | cons hw hrest =>
      rename_i c cs
      have hb := (wiener_bounds hw (fun n hn' => hn n (by
        rw [hl]
        simp only [List.mem_singleton] at hn'
        simp [hn'])) (hfit.margins g (by rw [hl]; exact List.mem_cons_self))).1
      rw [hst.1, h2, show Reward.entry (low .seriesDc) ((stateNames .seriesDc).idxOf "torque") = 0 from torqueLow_series] at hb
      have h3 := hr.1
      rw [e] at h3
      cases h3 with
      | cons h4 h5 =>
        simp only [vec, Fin.val_zero, List.getD_cons_zero]
        exact hb.trans h4

variable {H S C P G τ A : Type}

/-- C122 (registered environments): a controller of the package and the registered environment that it was made for, with the default
arguments of C115.  All tasks and both kinds of actions for the DC motors, current control with continuous actions for the synchronous
motors.  Whatever has been done with the environment before, `control_environment` executes all its steps without an exception. -/
theorem c122_registered_partial {R : Rng H} (hR : RngOk R) (mo : Registry.Motor) {name : String} {d : Defaults}
    (hd : make mo.envId = some (name, d))
    {D : Drive} (hD : Drives d.motor D) {pw : Power A C} {conv : C} {space : A → Prop}
    (hpw : Powered d.tau d.action d.converter A C pw conv space) (p : Parts ℝ D.Y D.U A S C P) (hu : Uses p pw) (hs : Shaped p D.shape)
    (limits nominal : List ℝ) (hl : limits.length = (stateNames d.motor).length)
    (hn : NominalOk d.motor limits nominal (d.references.list.map (·.state)))
    (hT : 0 ≤ Reward.entry limits ((stateNames d.motor).idxOf "torque"))
    (start : G → G × D.Y) (hstart : ∀ g, D.shape (start g).2) (seedSystem : ℕ → G → G)
    {gen : RefGen τ ℝ} {new : τ → Prop} {reseeded : τ → τ → Prop} (hg : Generates R d.motor limits nominal d.references τ gen new reseeded)
    (seedRef : ℕ → τ → τ) (hseed : ∀ n s, reseeded s (seedRef n s)) (lower : String → String)
    (hlower : ∀ n ∈ stateNames d.motor, lower n = n) (nCb : ℕ) (x : World S C P G τ) (hx : x.sys.conv = conv) (hf : new x.ref)
    (hk : x.sys.k = 0)
    {I : Inner κ (stateNames d.motor).length k j} {form : κ → Prop}
    (hI : Cascade (Reward.entry limits ((stateNames d.motor).idxOf "torque")) _ d.motor mo.control κ k j I form)
    {out : (Fin j → ℝ) → Except Err A} (ho : Outputs d.action d.converter A j out) (hfin : d.action = .finite → FourOnly d.converter) :
    ∃ mods, build (Registry.setup d p (D.frame A) D.rep limits start seedSystem gen seedRef lower nCb) = .ok mods ∧
      ∀ (limit : Option ℕ) (seeds : ℕ → ℕ) (n : ℕ) (ops : List (Core.Op (World S C P G τ) A)) (_ : ∀ op ∈ ops, Proper space op)
        (ctl : κ) (_ : form ctl), ∃ more ctl' l,
        controlEnvironment mods (adapter (fun i => Reward.entry limits i)
            (fun i => Reward.entry limits ((stateNames d.motor).idxOf ((controlled d.motor mo.control).getD i ""))) I out)
            limit seeds n (Core.run mods (Core.Env.init mods x) ops).1 ctl
          = (((Core.run mods (Core.Env.init mods x) (ops ++ more)).1, ctl'), .ok l) ∧ stepsIn l = n ∧ form ctl' ∧
        ∀ op ∈ more, Proper space op := by
  obtain ⟨name', d', hd', hmatch, hfit⟩ := entry_of mo
  rw [hd, Option.some.injEq, Prod.mk.injEq] at hd'
  obtain ⟨rfl, rfl⟩ := hd'
  obtain ⟨mods, h1, h2⟩ := c115_environment hR mo hd hD hpw p hu hs limits nominal hl hn start hstart seedSystem hg seedRef hseed lower
    hlower nCb x hx hf hk
  obtain ⟨ready, hc⟩ := cascade_computes hT hI
  obtain ⟨s1, s2⟩ := cascade_sizes hI
  refine ⟨mods, h1, fun limit seeds n ops hops ctl hctl => ?_⟩
  have hq := adapter_commands hc (fun i => Reward.entry limits i)
    (fun i => Reward.entry limits ((stateNames d.motor).idxOf ((controlled d.motor mo.control).getD i "")))
    (outputs_answer hpw ho (by rw [hfit.converter]; exact s2) hfin (by rw [hfit.converter]; cases d.motor <;> simp [converterOf]))
  exact c122_loop h2 hq (references_answerable hmatch hfit hn hg hT s1) limit seeds n ops hops ctl hctl

/-- C122 is violated by the environments of the synchronous motors with finite actions: `GemController.make` builds controllers for
them (C58), but the output stage has no actions for three phase bridges.  Whatever the cascade is, as long as it answers:
`control_environment` ends in the first step, with a NotImplementedError for a single bridge, and with a ValueError for an EESM, whose
cascade has four voltages for its two converters. -/
theorem c122_finite_violated {R : Rng H} (hR : RngOk R) (mo : Registry.Motor) (hmo : mo.type = .pmsm ∨ mo.type = .synRm ∨ mo.type = .eesm)
    (hact : mo.action = .finite) {name : String} {d : Defaults}
    (hd : make mo.envId = some (name, d))
    {D : Drive} (hD : Drives d.motor D) {pw : Power A C} {conv : C} {space : A → Prop}
    (hpw : Powered d.tau d.action d.converter A C pw conv space) (p : Parts ℝ D.Y D.U A S C P) (hu : Uses p pw) (hs : Shaped p D.shape)
    (limits nominal : List ℝ) (hl : limits.length = (stateNames d.motor).length)
    (hn : NominalOk d.motor limits nominal (d.references.list.map (·.state)))
    (start : G → G × D.Y) (hstart : ∀ g, D.shape (start g).2) (seedSystem : ℕ → G → G)
    {gen : RefGen τ ℝ} {new : τ → Prop} {reseeded : τ → τ → Prop} (hg : Generates R d.motor limits nominal d.references τ gen new reseeded)
    (seedRef : ℕ → τ → τ) (hseed : ∀ n s, reseeded s (seedRef n s)) (lower : String → String)
    (hlower : ∀ n ∈ stateNames d.motor, lower n = n) (nCb : ℕ) (x : World S C P G τ) (hx : x.sys.conv = conv) (hf : new x.ref)
    (hk : x.sys.k = 0)
    {I : Inner κ (stateNames d.motor).length k (voltagesOf d.converter)} {form ready : κ → Prop} (hI : Computes I form ready (fun _ => True))
    (hsize : k = (controlled d.motor mo.control).length)
    {out : (Fin (voltagesOf d.converter) → ℝ) → Except Err A} (ho : Outputs d.action d.converter A _ out)
    (stateLimits : Fin (stateNames d.motor).length → ℝ) (refLimits : Fin k → ℝ) :
    ∃ mods, build (Registry.setup d p (D.frame A) D.rep limits start seedSystem gen seedRef lower nCb) = .ok mods ∧
      ∀ (limit : Option ℕ) (seeds : ℕ → ℕ) (n : ℕ) (ops : List (Core.Op (World S C P G τ) A)) (_ : ∀ op ∈ ops, Proper space op)
        (ctl : κ) (_ : form ctl),
        (controlEnvironment mods (adapter stateLimits refLimits I out) limit seeds (n + 1)
          (Core.run mods (Core.Env.init mods x) ops).1 ctl).2
          = .error (if mo.type = .eesm then .value else .notImplemented) := by
  obtain ⟨name', d', hd', hmatch, hfit⟩ := entry_of mo
  rw [hd, Option.some.injEq, Prod.mk.injEq] at hd'
  obtain ⟨rfl, rfl⟩ := hd'
  obtain ⟨mods, h1, h2⟩ := c115_environment hR mo hd hD hpw p hu hs limits nominal hl hn start hstart seedSystem hg seedRef hseed lower
    hlower nCb x hx hf hk
  refine ⟨mods, h1, fun limit seeds n ops hops ctl hctl => ?_⟩
  have hout : ∀ u, out u = .error (if mo.type = .eesm then .value else .notImplemented) := by
    intro u
    have ha := hmatch.action.trans hact
    have hc := hfit.converter
    have hm := hmatch.motor
    clear hpw hD hg h2 h1 hI hx
    generalize d.action = act at *
    generalize d.converter = cv at *
    subst ha
    rw [hm] at hc
    rcases hmo with e | e | e <;> rw [e] at hc ⊢ <;> simp only [converterOf] at hc <;> subst hc <;> cases ho
    · rfl
    · rfl
    · rfl
  obtain ⟨s, o, g1, g2, g3, g4⟩ := next_reset h2 ops hops (seeds 0)
  obtain ⟨cs, e, hcs⟩ := generates_low hg
  have hst := hmatch.references
  rw [← hmatch.motor] at hst
  have hlen : o.2.length = k := by
    have : o.2.length = gen.low.length := g2.2.2.1.length_eq.symm
    rw [this, e, List.length_map, ← hcs.length_eq, hsize, ← hst, List.length_map]
  have hlen1 : o.1.length = (stateNames d.motor).length := by
    rw [g2.2.1, List.length_map]
    rfl
  obtain ⟨c', u, e1, -⟩ := hI.control (I.reset ctl) (inputStage stateLimits refLimits (vec _ o.1) (vec k o.2)).1
    (inputStage stateLimits refLimits (vec _ o.1) (vec k o.2)).2 (hI.reset _ hctl) trivial
  have e2 : (adapter stateLimits refLimits I out).control (I.reset ctl) o
      = (c', .error (if mo.type = .eesm then .value else .notImplemented)) := by
    simp only [adapter, hlen, hlen1, and_self, if_true, e1, Except.bind, hout]
  have e3 : (adapter stateLimits refLimits I out).reset ctl = I.reset ctl := rfl
  simp only [controlEnvironment, g1, Closed.loop, e3, e2, Except.map]

/-! ## Such environments and controllers exist -/

/-- a base controller with gains 1 -/
def unitBase (n m : ℕ) (kind : Ctl.Kind) (idx : Fin n → Fin m) : Base n m ℝ :=
  ⟨kind, fun _ => 1, fun _ => 1, fun _ => 0, 1, idx, none, fun _ => 0⟩

/-- a current controller with gains 1 -/
def unitCurrent (n m : ℕ) (idx : Fin n → Fin m) : Current n m ℝ :=
  ⟨unitBase n m .PI idx, none, .absolute (fun _ => -1) (fun _ => 1), 1, idx, []⟩

/-- The combinations of C122: all DC motors, and current control of the synchronous motors with continuous actions. -/
def Controllable (mo : Registry.Motor) : Prop :=
  (mo.type = .seriesDc ∨ mo.type = .shuntDc ∨ mo.type = .extExDc ∨ mo.type = .permExDc) ∨
  (mo.type = .pmsm ∨ mo.type = .synRm ∨ mo.type = .eesm) ∧ mo.control = .current ∧ mo.action = .continuous

theorem cascade_exists (limit : ℝ) {mo : Registry.Motor} (h : Controllable mo) (m : ℕ) [NeZero m] :
    ∃ (κ : Type) (k j : ℕ) (I : Inner κ m k j) (form : κ → Prop), Cascade limit m mo.type mo.control κ k j I form ∧ ∃ c, form c := by
  have dc : ∀ (n : ℕ) (ops : Closed.Ops Unit m n), DcOps m mo.type n ops →
      ∃ (κ : Type) (k j : ℕ) (I : Inner κ m k j) (form : κ → Prop), Cascade limit m mo.type mo.control κ k j I form ∧ ∃ c, form c := by
    intro n ops hops
    cases mo.control with
    | current => exact ⟨_, _, _, _, _, .dcCurrent _ _ _ hops, unitCurrent n m fun _ => 0, trivial⟩
    | torque => exact ⟨_, _, _, _, _, .dcTorque _ _ _ hops (.absolute (fun _ => -1) (fun _ => 1)), ((), unitCurrent n m fun _ => 0), trivial⟩
    | speed => exact ⟨_, _, _, _, _, .dcSpeed _ _ _ hops (.absolute (fun _ => -1) (fun _ => 1)) 0 zero_le_one,
        (⟨unitBase 1 m .PI fun _ => 0, _, 1, fun _ => 0⟩, ((), unitCurrent n m fun _ => 0)), rfl, trivial⟩
  let mp : Motor.DcParams ℝ := ⟨1, 1, 1, 1, 1⟩
  rcases h with (h | h | h | h) | ⟨h | h | h, hc, -⟩
  · exact dc 1 (seriesOps 1) (by rw [h]; exact .series 1 zero_le_one)
  · exact dc 1 (shuntOps mp 1 1 0 0) (by rw [h]; exact .shunt mp 1 1 0 0)
  · exact dc 2 (extExOps mp 0) (by rw [h]; exact .extEx mp 0)
  · exact dc 1 (permExOps 1) (by rw [h]; exact .permEx 1)
  · rw [h, hc]
    exact ⟨_, _, _, _, _, .pmsm fun _ u => ![u 0, u 1, -u 0 - u 1], unitCurrent 2 m fun _ => 0, trivial⟩
  · rw [h, hc]
    exact ⟨_, _, _, _, _, .synRm fun _ u => ![u 0, u 1, -u 0 - u 1], unitCurrent 2 m fun _ => 0, trivial⟩
  · rw [h, hc]
    exact ⟨_, _, _, _, _, .eesm fun _ u => ![u 0, u 1, -u 0 - u 1, u 2], unitCurrent 3 m fun _ => 0, trivial⟩

theorem outputs_exist {tau : ℝ} {a : ActionType} {arg : ConvArg} {A C : Type} {pw : Power A C} {c : C} {space : A → Prop}
    (hpw : Powered tau a arg A C pw c space) (j : ℕ) : ∃ out : (Fin j → ℝ) → Except Err A, Outputs a arg A j out := by
  cases hpw with
  | finite b => exact ⟨_, .one b fun _ => (-1, 1)⟩
  | continuous b => exact ⟨_, .cont _ fun _ => 1⟩
  | finiteMulti bs => exact ⟨_, .many bs fun _ => (-1, 1)⟩
  | contMulti bs => exact ⟨_, .cont _ fun _ => 1⟩

/-- Every such environment, with a motor that does not move, limits 2 and nominal values 1, and a controller with gains 1: a hundred
steps. -/
example (mo : Registry.Motor) (h : Controllable mo) : ∃ (κ Y A C τ : Type)
    (mods : Core.Comps (World (Y × ℝ) C Unit Unit τ) A (List ℝ) (List ℝ) (List ℝ) ℝ) (q : Controller κ (List ℝ × List ℝ) A)
    (x : World (Y × ℝ) C Unit Unit τ) (ctl : κ), ∃ env' ctl' l,
      controlEnvironment mods q (some 10) id 100 (Core.Env.init mods x) ctl = ((env', ctl'), .ok l) ∧ stepsIn l = 100 := by
  obtain ⟨name, d, hd, hmatch, hfit⟩ := entry_of mo
  obtain ⟨D, hD, y, hy⟩ := drives_exists d.motor
  obtain ⟨A, C, pw, c0, space, hpw⟩ := powered_exists d.tau d.action d.converter
  obtain ⟨τ, gen, new, reseeded, hg, ⟨s, hs⟩, hr⟩ := c115_generators demoRng (fun n => n) mo hd
    (List.replicate (stateNames d.motor).length 2) (List.replicate (stateNames d.motor).length 1) 0
  have hne : NeZero (stateNames d.motor).length := ⟨by cases d.motor <;> decide⟩
  obtain ⟨κ, k, j, I, form, hI, ctl, hctl⟩ := cascade_exists
    (Reward.entry (List.replicate (stateNames d.motor).length 2) ((stateNames d.motor).idxOf "torque")) h (stateNames d.motor).length
  rw [← hmatch.motor] at hI
  obtain ⟨out, ho⟩ := outputs_exist hpw j
  obtain ⟨mods, -, h2⟩ := c122_registered_partial demoRng_ok mo hd hD hpw (restingParts pw) ⟨rfl, rfl, rfl, rfl⟩
    ⟨fun _ _ _ => rfl, fun _ => rfl, fun _ _ _ h => h, fun _ _ _ h => h⟩ _ _ (by simp) (fun n hn => by
      simp only [Nominal, Reward.entry, List.getD_eq_getElem?_getD, List.getElem?_replicate]
      split_ifs <;> norm_num) (by
      simp only [Reward.entry, List.getD_eq_getElem?_getD, List.getElem?_replicate]
      split_ifs <;> norm_num) (fun g : Unit => (g, y)) (fun _ => hy) (fun _ g => g) hg (fun _ s => s) (fun _ s => hr s) id
    (fun _ _ => rfl) 1 ⟨{ t := 0, k := 0, solver := (y, 0), conv := c0, supply := () }, (), s⟩ rfl hs rfl hI ho (fun e => by
      rw [hfit.converter, hmatch.motor]
      rw [hmatch.action] at e
      rcases h with (h | h | h | h) | ⟨-, -, h⟩
      · rw [h]; rfl
      · rw [h]; rfl
      · rw [h]; simp [converterOf, FourOnly]
      · rw [h]; rfl
      · rw [e] at h; cases h)
  obtain ⟨more, ctl', l, e1, e2, -⟩ := h2 (some 10) id 100 [] (by simp) ctl hctl
  exact ⟨κ, D.Y, A, C, τ, mods, _, _, ctl, _, ctl', l, e1, e2⟩

end registered

end

end GEM.Props
