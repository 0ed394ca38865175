import Verif.Model.Env
import Mathlib.Tactic.Linarith
import Mathlib.Tactic.NormNum
import Mathlib.Data.Rat.Cast.Order

/-!
# Properties C01–C04, C63: the environment loop
-/

set_option linter.unusedSectionVars false

namespace GEM.Props

open GEM GEM.Core

variable {σ A S R O K : Type*} [LE K] [One K] [DecidableLE K]

/-! ## Specification vocabulary -/

/-- May the environment be stepped, judged only from what the caller did and saw so far? -/
def stepAllowed (hist : List (Op σ A × Out S O K)) : Bool :=
  hist.foldl (fun allowed h => match h with
    | (.reset _, _) => true
    | (.step _, .step (.done r)) => if r.terminated then false else allowed
    | (.setRef _, _) => false
    | (.setReward _, _) => false
    | _ => allowed) false

/-- Modules that do not raise. -/
structure NoRaise (C : Comps σ A S R O K) : Prop where
  psReset : ∀ c, ∃ s, (C.psReset c).2 = .ok s
  refReset : ∀ c s, ∃ r, (C.refReset c s).2 = .ok r
  simulate : ∀ c a, ∃ s, (C.simulate c a).2 = .ok s
  getRef : ∀ c s, ∃ r, (C.getRef c s).2 = .ok r
  check : ∀ c s, ∃ d, (C.check c s).2 = .ok d
  reward : ∀ c s r k a d, ∃ w, (C.reward c s r k a d).2 = .ok w
  refObs : ∀ c s, ∃ o, (C.refObs c s).2 = .ok o

/-! ## Helper lemmas -/

theorem ne_error {α : Type*} {x : Except Err α} {e : Err} (h : ∃ a, x = .ok a) : x ≠ .error e := by
  obtain ⟨a, rfl⟩ := h; simp

theorem fire_terminated (C : Comps σ A S R O K) (env : Env σ A S R O K) (e : CbEvent A S R K) :
    (env.fire C e).terminated = env.terminated := rfl

/-- The complete behaviour of an executed step. -/
theorem stepBody_cases (C : Comps σ A S R O K) (env : Env σ A S R O K) (a : A) :
    (∃ e, (env.stepBody C a).2 = .error e ∧
      ((env.stepBody C a).1.terminated = env.terminated ∨
        ∃ c s, (∃ e, (C.refObs c s).2 = .error e))) ∨
    (∃ s r d w o k k',
      (env.stepBody C a).2 = .ok ⟨(C.observe s, o), w, decide (1 ≤ d), false⟩ ∧
      (env.stepBody C a).1.terminated = decide (1 ≤ d) ∧
      (env.stepBody C a).1.log = env.log ++
        ((List.range C.nCb).map (fun i => .cb i (.stepBegin (C.psK env.comp) a)) ++
        ([.simulate a (.ok s), .getRef s (.ok r), .check s (.ok d), .reward s r k a d (.ok w), .refObs s (.ok o)] ++
        (List.range C.nCb).map (fun i => .cb i (.stepEnd k' s r w (decide (1 ≤ d)))))) ∧
      (∃ e0 : σ, e0 = (env.fire C (.stepBegin (C.psK env.comp) a)).comp ∧
        k = C.psK (C.check (C.getRef (C.simulate e0 a).1 s).1 s).1 ∧
        k' = C.psK (C.refObs (C.reward (C.check (C.getRef (C.simulate e0 a).1 s).1 s).1 s r k a d).1 s).1)) := by
  simp only [Env.stepBody, Env.call, Call.bind]
  cases h1 : (C.simulate (env.fire C (.stepBegin (C.psK env.comp) a)).comp a).2 with
  | error e => left; exact ⟨e, rfl, Or.inl rfl⟩
  | ok s =>
    simp only
    cases h2 : (C.getRef (C.simulate (env.fire C (.stepBegin (C.psK env.comp) a)).comp a).1 s).2 with
    | error e => left; exact ⟨e, rfl, Or.inl rfl⟩
    | ok r =>
      simp only
      cases h3 : (C.check (C.getRef (C.simulate (env.fire C (.stepBegin (C.psK env.comp) a)).comp a).1 s).1 s).2 with
      | error e => left; exact ⟨e, rfl, Or.inl rfl⟩
      | ok d =>
        simp only
        split
        · rename_i w h4
          split
          · rename_i o h5
            right
            refine ⟨s, r, d, w, o, _, _, rfl, rfl, ?_, _, rfl, rfl, rfl⟩
            simp only [Env.fire] at h4 h5 ⊢
            simp [h4, h5]
          · rename_i e h5
            left
            exact ⟨e, rfl, Or.inr ⟨_, _, e, h5⟩⟩
        · rename_i e h4
          left; exact ⟨e, rfl, Or.inl rfl⟩

theorem reset_terminated (C : Comps σ A S R O K) (env : Env σ A S R O K) (n : ℕ) :
    (env.reset C n).1.terminated = false := by
  simp only [Env.reset, Env.call, Call.bind]
  split
  · split <;> rfl
  · rfl

/-- The flag of the environment refines the caller's view. -/
theorem terminated_refines (C : Comps σ A S R O K) (env : Env σ A S R O K) (ops : List (Op σ A)) (b : Bool)
    (hb : env.terminated = false → b = true) :
    (run C env ops).1.terminated = false →
      (run C env ops).2.foldl (fun allowed h => match h with
        | (.reset _, _) => true
        | (.step _, .step (.done r)) => if r.terminated then false else allowed
        | (.setRef _, _) => false
        | (.setReward _, _) => false
        | _ => allowed) b = true := by
  induction ops generalizing env b with
  | nil => simpa [run] using hb
  | cons op ops ih =>
    simp only [run, List.foldl_cons]
    apply ih
    cases op with
    | reset n => intro _; rfl
    | setRef f => intro h; simp [apply] at h
    | setReward f => intro h; simp [apply] at h
    | close => intro h; exact hb h
    | step a =>
      intro h
      simp only [apply, Env.step] at h ⊢
      by_cases ht : env.terminated = true
      · rw [if_pos ht] at h ⊢
        exact hb h
      · rw [if_neg ht] at h ⊢
        have ht' : env.terminated = false := by simpa using ht
        rcases stepBody_cases C env a with ⟨e, he, _⟩ | ⟨s, r, d, w, o, k, k', he, hterm, _⟩
        · simp only [he]; exact hb ht'
        · simp only [he]
          simp only [hterm] at h
          rw [h]
          simpa using hb ht'

/-- Conversely, if no reference observation raises. -/
theorem terminated_refines' (C : Comps σ A S R O K) (hC : ∀ c s, ∃ o, (C.refObs c s).2 = .ok o)
    (env : Env σ A S R O K) (ops : List (Op σ A)) (b : Bool) (hb : b = true → env.terminated = false) :
      (run C env ops).2.foldl (fun allowed h => match h with
        | (.reset _, _) => true
        | (.step _, .step (.done r)) => if r.terminated then false else allowed
        | (.setRef _, _) => false
        | (.setReward _, _) => false
        | _ => allowed) b = true → (run C env ops).1.terminated = false := by
  induction ops generalizing env b with
  | nil => simpa [run] using hb
  | cons op ops ih =>
    simp only [run, List.foldl_cons]
    apply ih
    cases op with
    | reset n => intro _; exact reset_terminated C env n
    | setRef f => intro h; simp at h
    | setReward f => intro h; simp at h
    | close => intro h; exact hb h
    | step a =>
      intro h
      simp only [apply, Env.step] at h ⊢
      by_cases ht : env.terminated = true
      · rw [if_pos ht] at h ⊢
        exact hb h
      · rw [if_neg ht] at h ⊢
        have ht' : env.terminated = false := by simpa using ht
        rcases stepBody_cases C env a with ⟨e, he, h'⟩ | ⟨s, r, d, w, o, k, k', he, hterm, _⟩
        · rcases h' with h' | ⟨c, s, e, hr⟩
          · simp only [h', ht']
          · obtain ⟨o, ho⟩ := hC c s
            rw [ho] at hr; simp at hr
        · simp only [he] at h
          simp only [hterm]
          by_cases hd : decide (1 ≤ d) = true
          · rw [if_pos hd] at h; simp at h
          · simpa using hd

/-! ## C01 Stepping requires a reset -/

/-- C01 (safety): whatever the modules do, in every history a step is only executed if a reset was called since the
construction, since the last step that reported `terminated`, and since the last replacement of a module. -/
theorem c01_executed_needs_reset (C : Comps σ A S R O K) (c : σ) (ops : List (Op σ A)) (a : A)
    (h : ((run C (Env.init C c) ops).1.step C a).2 ≠ .rejected) :
    stepAllowed (run C (Env.init C c) ops).2 = true := by
  apply terminated_refines C _ ops false
  · intro h; simp [Env.init, Env.fire] at h
  · by_contra ht
    apply h
    simp only [Env.step]
    rw [if_pos (by simpa using ht)]

/-- C01 (liveness): and then it is executed, provided that asking for the reference observation never raises (the only
call after the flag is set). -/
theorem c01_allowed_executes (C : Comps σ A S R O K) (hC : ∀ c s, ∃ o, (C.refObs c s).2 = .ok o)
    (c : σ) (ops : List (Op σ A)) (a : A) (h : stepAllowed (run C (Env.init C c) ops).2 = true) :
    ((run C (Env.init C c) ops).1.step C a).2 ≠ .rejected := by
  have := terminated_refines' C hC (Env.init C c) ops false (by simp) h
  simp only [Env.step, this]
  simp only [Bool.false_eq_true, if_false]
  split <;> simp

/-- C01 (no effect): a rejected step changes nothing: not the modules, not the flag, no call is made. -/
theorem c01_rejected_no_effect (C : Comps σ A S R O K) (env : Env σ A S R O K) (a : A)
    (h : (env.step C a).2 = .rejected) : (env.step C a).1 = env := by
  simp only [Env.step] at h ⊢
  split
  · rfl
  · rename_i ht
    rw [if_neg ht] at h
    simp only at h
    split at h <;> simp at h

/-! ## C02 Termination is exactly the violation threshold -/

/-- C02: in every environment state, a step that returns has asked every module exactly once, in this order and about
the same simulated state `s`, the degree `d` decides termination, and callbacks, reward function and caller are told
the same values. -/
theorem c02_step (C : Comps σ A S R O K) (env : Env σ A S R O K) (a : A) (res : StepResult S O K)
    (h : (env.step C a).2 = .done res) :
    ∃ s r d w o k k', ∃ calls : List (LogEntry A S R O K),
      calls = (List.range C.nCb).map (fun i => .cb i (.stepBegin (C.psK env.comp) a)) ++
        ([.simulate a (.ok s), .getRef s (.ok r), .check s (.ok d), .reward s r k a d (.ok w), .refObs s (.ok o)] ++
        (List.range C.nCb).map (fun i => .cb i (.stepEnd k' s r w res.terminated))) ∧
      (env.step C a).1.log = env.log ++ calls ∧
      res.obs = (C.observe s, o) ∧ res.reward = w ∧ (res.terminated = true ↔ 1 ≤ d) ∧ res.truncated = false ∧
      (env.step C a).1.terminated = res.terminated := by
  simp only [Env.step] at h ⊢
  split at h
  · simp at h
  · rename_i ht
    rw [if_neg ht]
    rcases stepBody_cases C env a with ⟨e, he, -⟩ | ⟨s, r, d, w, o, k, k', he, hterm, hlog, -⟩
    · simp [he] at h
    · simp only [he, Env.StepOut.done.injEq] at h
      subst h
      refine ⟨s, r, d, w, o, k, k', _, rfl, hlog, rfl, rfl, by simp, rfl, hterm⟩

/-! ## C03 Callback protocol -/

/-- What one callback must see for one call of the caller (exceptions included). -/
inductive Shape where
  | setEnv | resetBegin | resetEnd | stepBegin | stepEnd | close
deriving DecidableEq, Repr

def shapeOf : CbEvent A S R K → Shape
  | .setEnv => .setEnv
  | .resetBegin => .resetBegin
  | .resetEnd _ _ => .resetEnd
  | .stepBegin _ _ => .stepBegin
  | .stepEnd _ _ _ _ _ => .stepEnd
  | .close => .close

def expectedShapes : Op σ A × Out S O K → List Shape
  | (.reset _, .resetOk _) => [.resetBegin, .resetEnd]
  | (.reset _, _) => [.resetBegin]
  | (.step _, .step (.done _)) => [.stepBegin, .stepEnd]
  | (.step _, .step (.raised _)) => [.stepBegin]
  | (.close, _) => [.close]
  | _ => []

/-- The callback entries of a log, in order. -/
def cbEntries (l : List (LogEntry A S R O K)) : List (ℕ × CbEvent A S R K) :=
  l.filterMap (fun | .cb i e => some (i, e) | _ => none)

theorem cbEntries_append (l l' : List (LogEntry A S R O K)) :
    cbEntries (l ++ l') = cbEntries l ++ cbEntries l' := by
  simp [cbEntries, List.filterMap_append]

theorem cbEntries_map (n : ℕ) (e : CbEvent A S R K) :
    cbEntries ((List.range n).map (fun i => (LogEntry.cb i e : LogEntry A S R O K)))
      = (List.range n).map (fun i => (i, e)) := by
  simp [cbEntries, List.filterMap_map, Function.comp_def]

/-- Registration order, per event. -/
def broadcast (n : ℕ) (l : List Shape) : List (ℕ × Shape) := l.flatMap (fun s => (List.range n).map (fun i => (i, s)))

theorem broadcast_append (n : ℕ) (l l' : List Shape) : broadcast n (l ++ l') = broadcast n l ++ broadcast n l' := by
  simp [broadcast]

def shapes (l : List (LogEntry A S R O K)) : List (ℕ × Shape) := (cbEntries l).map (fun p => (p.1, shapeOf p.2))

theorem shapes_append (l l' : List (LogEntry A S R O K)) : shapes (l ++ l') = shapes l ++ shapes l' := by
  simp [shapes, cbEntries_append]

theorem shapes_fire (n : ℕ) (e : CbEvent A S R K) :
    shapes ((List.range n).map (fun i => (LogEntry.cb i e : LogEntry A S R O K))) = broadcast n [shapeOf e] := by
  simp [shapes, cbEntries_map, broadcast, Function.comp_def]

theorem apply_shapes (C : Comps σ A S R O K) (env : Env σ A S R O K) (op : Op σ A) :
    shapes (apply C env op).1.log = shapes env.log ++ broadcast C.nCb (expectedShapes (op, (apply C env op).2)) := by
  have one : ∀ x : LogEntry A S R O K, (∀ i e, x ≠ .cb i e) → shapes [x] = [] := by
    intro x hx
    cases x with
    | cb i e => exact absurd rfl (hx i e)
    | _ => rfl
  cases op with
  | setRef f => simp [apply, expectedShapes, broadcast]
  | setReward f => simp [apply, expectedShapes, broadcast]
  | close =>
    simp only [apply, Env.fire, expectedShapes]
    rw [shapes_append, shapes_fire]; rfl
  | step a =>
    simp only [apply, Env.step]
    split
    · simp [expectedShapes, broadcast]
    · simp only [Env.stepBody, Env.call, Call.bind]
      split
      · split
        · split
          · split
            · split
              · simp only [Env.fire, expectedShapes]
                simp only [shapes_append, shapes_fire]
                rw [one _ (by simp), one _ (by simp), one _ (by simp), one _ (by simp), one _ (by simp)]
                simp [broadcast, shapeOf]
              · simp only [Env.fire, expectedShapes]
                simp only [shapes_append, shapes_fire]
                rw [one _ (by simp), one _ (by simp), one _ (by simp), one _ (by simp), one _ (by simp)]
                simp [shapeOf]
            · simp only [Env.fire, expectedShapes]
              simp only [shapes_append, shapes_fire]
              rw [one _ (by simp), one _ (by simp), one _ (by simp), one _ (by simp)]
              simp [shapeOf]
          · simp only [Env.fire, expectedShapes]
            simp only [shapes_append, shapes_fire]
            rw [one _ (by simp), one _ (by simp), one _ (by simp)]
            simp [shapeOf]
        · simp only [Env.fire, expectedShapes]
          simp only [shapes_append, shapes_fire]
          rw [one _ (by simp), one _ (by simp)]
          simp [shapeOf]
      · simp only [Env.fire, expectedShapes]
        simp only [shapes_append, shapes_fire]
        rw [one _ (by simp)]
        simp [shapeOf]
  | reset n =>
    simp only [apply, Env.reset, Env.call, Call.bind]
    split
    · split
      · simp only [Env.fire, expectedShapes]
        simp only [shapes_append, shapes_fire]
        rw [one _ (by simp), one _ (by simp), one _ (by simp), one _ (by simp)]
        simp [broadcast, shapeOf]
      · simp only [Env.fire, expectedShapes]
        simp only [shapes_append, shapes_fire]
        rw [one _ (by simp), one _ (by simp), one _ (by simp)]
        simp [shapeOf]
    · simp only [Env.fire, expectedShapes]
      simp only [shapes_append, shapes_fire]
      rw [one _ (by simp), one _ (by simp)]
      simp [shapeOf]

/-- C03 (order): in every history, with arbitrary modules that may raise, the callbacks are invoked exactly as the
caller's view of the history prescribes: begin/end pairs for every reset and executed step, nothing for a rejected step,
and for each event all callbacks in registration order. -/
theorem c03_protocol (C : Comps σ A S R O K) (c : σ) (ops : List (Op σ A)) :
    shapes (run C (Env.init C c) ops).1.log =
      broadcast C.nCb (.setEnv :: (run C (Env.init C c) ops).2.flatMap expectedShapes) := by
  have key : ∀ env : Env σ A S R O K, shapes (run C env ops).1.log =
      shapes env.log ++ broadcast C.nCb ((run C env ops).2.flatMap expectedShapes) := by
    induction ops with
    | nil => intro env; simp [run, broadcast]
    | cons op ops ih =>
      intro env
      simp only [run, List.flatMap_cons, broadcast_append]
      rw [ih, apply_shapes, List.append_assoc]
  rw [key]
  have : shapes (Env.init C c).log = broadcast C.nCb [.setEnv] := by
    simp only [Env.init, Env.fire, List.nil_append]
    exact shapes_fire _ _
  rw [this, ← broadcast_append]; rfl

/-- The step counter of the physical system behaves as documented and no other module touches it
(discharged for the modelled physical systems in C35). -/
structure CounterLaw (C : Comps σ A S R O K) : Prop where
  psReset : ∀ c, C.psK (C.psReset c).1 = 0
  refReset : ∀ c s, C.psK (C.refReset c s).1 = C.psK c
  rewReset : ∀ c s r, C.psK (C.rewReset c s r) = C.psK c
  simulate : ∀ c a, C.psK (C.simulate c a).1 = C.psK c + 1
  getRef : ∀ c s, C.psK (C.getRef c s).1 = C.psK c
  check : ∀ c s, C.psK (C.check c s).1 = C.psK c
  reward : ∀ c s r k a d, C.psK (C.reward c s r k a d).1 = C.psK c
  refObs : ∀ c s, C.psK (C.refObs c s).1 = C.psK c
  onCb : ∀ i e c, C.psK (C.onCb i e c) = C.psK c

theorem psK_fire {C : Comps σ A S R O K} (hC : CounterLaw C) (env : Env σ A S R O K) (e : CbEvent A S R K) :
    C.psK (env.fire C e).comp = C.psK env.comp := by
  simp only [Env.fire]
  generalize List.range C.nCb = l
  induction l generalizing env with
  | nil => rfl
  | cons i l ih =>
    simp only [List.foldl_cons]
    have := ih { env with comp := C.onCb i e env.comp }
    simp only at this
    rw [this, hC.onCb]

/-- Step numbers in callbacks: number of steps executed since the last reset, from the caller's view. -/
def stepsSinceReset (hist : List (Op σ A × Out S O K)) : ℕ :=
  hist.foldl (fun n h => match h with
    | (.reset _, _) => 0
    | (.step _, .step (.done _)) => n + 1
    | _ => n) 0

theorem psK_run {C : Comps σ A S R O K} (hC : CounterLaw C) (hN : NoRaise C) (env : Env σ A S R O K)
    (ops : List (Op σ A)) (hops : ∀ op ∈ ops, ∀ f, op = .setRef f ∨ op = .setReward f → ∀ c, C.psK (f c) = C.psK c) (n : ℕ)
    (hn : C.psK env.comp = n) :
    C.psK (run C env ops).1.comp = (run C env ops).2.foldl (fun n h => match h with
      | (.reset _, _) => 0
      | (.step _, .step (.done _)) => n + 1
      | _ => n) n := by
  induction ops generalizing env n with
  | nil => exact hn
  | cons op ops ih =>
    simp only [run, List.foldl_cons]
    apply ih _ (fun o ho => hops o (by simp [ho]))
    cases op with
    | setRef f => simp only [apply]; rw [hops (.setRef f) (by simp) f (Or.inl rfl), hn]
    | setReward f => simp only [apply]; rw [hops (.setReward f) (by simp) f (Or.inr rfl), hn]
    | close => simp only [apply]; rw [psK_fire hC, hn]
    | reset s =>
      simp only [apply, Env.reset, Env.call, Call.bind]
      split
      · split
        · simp only
          rw [psK_fire hC]
          simp only
          rw [hC.rewReset, hC.refReset, hC.psReset]
        · simp only; rw [hC.refReset, hC.psReset]
      · simp only; rw [hC.psReset]
    | step a =>
      simp only [apply, Env.step]
      split
      · exact hn
      · simp only [Env.stepBody, Env.call, Call.bind]
        obtain ⟨s, hs⟩ := hN.simulate (env.fire C (.stepBegin (C.psK env.comp) a)).comp a
        simp only [hs]
        obtain ⟨r, hr⟩ := hN.getRef (C.simulate (env.fire C (.stepBegin (C.psK env.comp) a)).comp a).1 s
        simp only [hr]
        obtain ⟨d, hd⟩ := hN.check (C.getRef (C.simulate (env.fire C (.stepBegin (C.psK env.comp) a)).comp a).1 s).1 s
        simp only [hd]
        split
        · split
          · simp only
            rw [psK_fire hC]
            simp only
            rw [hC.refObs, hC.reward, hC.check, hC.getRef, hC.simulate, psK_fire hC, hn]
          · rename_i e he
            exact absurd he (ne_error (hN.refObs _ _))
        · rename_i e he
          exact absurd he (ne_error (hN.reward _ _ _ _ _ _))

/-- C03 (step numbers): in a history in which no module raises, the callbacks get in `on_step_begin` the number of steps
executed since the last reset and in `on_step_end` (like the reward function) one more. -/
theorem c03_step_numbers {C : Comps σ A S R O K} (hC : CounterLaw C) (hN : NoRaise C) (c : σ) (h0 : C.psK c = 0)
    (ops : List (Op σ A))
    (hops : ∀ op ∈ ops, ∀ f, op = .setRef f ∨ op = .setReward f → ∀ c, C.psK (f c) = C.psK c) (a : A)
    (res : StepResult S O K) (hd : ((run C (Env.init C c) ops).1.step C a).2 = .done res) :
    ∃ s r d w o, ((run C (Env.init C c) ops).1.step C a).1.log =
      (run C (Env.init C c) ops).1.log ++
        ((List.range C.nCb).map (fun i => .cb i (.stepBegin (stepsSinceReset (run C (Env.init C c) ops).2) a)) ++
        ([.simulate a (.ok s), .getRef s (.ok r), .check s (.ok d),
          .reward s r (stepsSinceReset (run C (Env.init C c) ops).2 + 1) a d (.ok w), .refObs s (.ok o)] ++
        (List.range C.nCb).map (fun i =>
          .cb i (.stepEnd (stepsSinceReset (run C (Env.init C c) ops).2 + 1) s r w res.terminated)))) := by
  have hk := psK_run hC hN (Env.init C c) ops hops 0 (by rw [Env.init, psK_fire hC]; exact h0)
  set env := (run C (Env.init C c) ops).1
  have hk : C.psK env.comp = stepsSinceReset (run C (Env.init C c) ops).2 := hk
  simp only [Env.step] at hd ⊢
  split at hd
  · simp at hd
  · rename_i ht
    rw [if_neg ht]
    rcases stepBody_cases C env a with ⟨e, he, -⟩ | ⟨s, r, d, w, o, k, k', he, hterm, hlog, e0, he0, hk'', hk'⟩
    · simp [he] at hd
    · simp only [he, Env.StepOut.done.injEq] at hd
      subst hd
      refine ⟨s, r, d, w, o, ?_⟩
      rw [hlog, hk', hk'', he0]
      rw [hC.refObs, hC.reward, hC.check, hC.getRef, hC.simulate, psK_fire hC, hk]

/-! A concrete environment: the state is the sum of the actions, it terminates when the sum exceeds 1, the reset always
succeeds.  It satisfies the hypotheses of the theorems above, and all three outcomes of C01 occur. -/

/-- modules of the example: `(k, x)` -/
def demo : Comps (ℕ × ℚ) ℚ ℚ ℚ ℚ ℚ where
  seed _ c := c
  psReset _ := ((0, 0), .ok 0)
  refReset c _ := (c, .ok (0, 0))
  rewReset c _ _ := c
  psK c := c.1
  simulate c a := ((c.1 + 1, c.2 + a), .ok (c.2 + a))
  getRef c _ := (c, .ok 0)
  check c s := (c, .ok (if 1 < s then 1 else 0))
  reward c s r _ _ _ := (c, .ok (r - s))
  refObs c _ := (c, .ok 0)
  observe s := s
  nCb := 2
  onCb _ _ c := c

example : CounterLaw demo ∧ NoRaise demo :=
  ⟨⟨by simp [demo], by simp [demo], by simp [demo], by simp [demo], by simp [demo], by simp [demo],
    by simp [demo], by simp [demo], by simp [demo]⟩,
   ⟨by simp [demo], by simp [demo], by simp [demo], by simp [demo], by simp [demo], by simp [demo], by simp [demo]⟩⟩

example : ∃ r1 r2, (run demo (Env.init demo (0, 0))
      [.step 1, .reset 7, .step (1 / 2), .step 1, .step 0]).2 =
    [(.step 1, .step .rejected), (.reset 7, .resetOk (0, 0)), (.step (1 / 2), .step (.done r1)),
     (.step 1, .step (.done r2)), (.step 0, .step .rejected)] ∧ r1.terminated = false ∧ r2.terminated = true := by
  refine ⟨⟨(1 / 2, 0), -(1 / 2), false, false⟩, ⟨(3 / 2, 0), -(3 / 2), true, false⟩, ?_, rfl, rfl⟩
  norm_num [run, apply, Env.init, Env.step, Env.stepBody, Env.reset, Env.fire, Env.call, Call.bind, demo, List.range, List.range.loop]

/-! ## C63 A reset that fails does not open the environment -/

/-- May the environment be stepped if only completed resets count? -/
def stepAllowedStrict (hist : List (Op σ A × Out S O K)) : Bool :=
  hist.foldl (fun allowed h => match h with
    | (.reset _, .resetOk _) => true
    | (.reset _, _) => false
    | (.step _, .step (.done r)) => if r.terminated then false else allowed
    | (.setRef _, _) => false
    | (.setReward _, _) => false
    | _ => allowed) false

/-- C63 is violated: after a reset that raised (before any initial state existed) a step is executed. -/
theorem c63_failed_reset_violated :
    ∃ (C : Comps (ℕ × ℚ) ℚ ℚ ℚ ℚ ℚ) (c : ℕ × ℚ) (ops : List (Op (ℕ × ℚ) ℚ)) (a : ℚ),
      stepAllowedStrict (run C (Env.init C c) ops).2 = false ∧
      ((run C (Env.init C c) ops).1.step C a).2 ≠ .rejected := by
  refine ⟨{ demo with psReset := fun c => (c, .error .value) }, (0, 0), [.reset 0], 1, ?_, ?_⟩
  · simp [run, apply, Env.init, Env.reset, Env.fire, Env.call, Call.bind, demo, stepAllowedStrict]
  · norm_num [run, apply, Env.init, Env.step, Env.stepBody, Env.reset, Env.fire, Env.call, Call.bind, demo, List.range, List.range.loop]
    exact fun h => by cases h

theorem fold_strict_eq (l : List (Op σ A × Out S O K)) (b : Bool)
    (h : ∀ p ∈ l, ∀ n e, p ≠ (Op.reset n, Out.resetRaised e)) (h' : ∀ p ∈ l, ∀ n, p.1 = Op.reset n →
      (∃ o, p.2 = Out.resetOk o) ∨ ∃ e, p.2 = Out.resetRaised e) :
    l.foldl (fun allowed h => match h with
    | (.reset _, .resetOk _) => true
    | (.reset _, _) => false
    | (.step _, .step (.done r)) => if r.terminated then false else allowed
    | (.setRef _, _) => false
    | (.setReward _, _) => false
    | _ => allowed) b = l.foldl (fun allowed h => match h with
    | (.reset _, _) => true
    | (.step _, .step (.done r)) => if r.terminated then false else allowed
    | (.setRef _, _) => false
    | (.setReward _, _) => false
    | _ => allowed) b := by
  induction l generalizing b with
  | nil => rfl
  | cons p l ih =>
    simp only [List.foldl_cons]
    rw [ih _ (fun q hq => h q (by simp [hq])) (fun q hq => h' q (by simp [hq]))]
    congr 1
    obtain ⟨op, out⟩ := p
    cases op with
    | reset n =>
      rcases h' (.reset n, out) (by simp) n rfl with ⟨o, ho⟩ | ⟨e, he⟩
      · simp only at ho; subst ho; rfl
      · exact absurd (by simp only at he; rw [he]) (h (.reset n, out) (by simp) n e)
    | step a => cases out with
      | step r => cases r <;> rfl
      | _ => rfl
    | _ => rfl

theorem run_reset_out (C : Comps σ A S R O K) (env : Env σ A S R O K) (ops : List (Op σ A)) :
    ∀ p ∈ (run C env ops).2, ∀ n, p.1 = Op.reset n → (∃ o, p.2 = Out.resetOk o) ∨ ∃ e, p.2 = Out.resetRaised e := by
  induction ops generalizing env with
  | nil => simp [run]
  | cons op ops ih =>
    intro p hp n hn
    simp only [run, List.mem_cons] at hp
    rcases hp with rfl | hp
    · simp only at hn
      subst hn
      simp only [apply]
      split
      · left; exact ⟨_, rfl⟩
      · right; exact ⟨_, rfl⟩
    · exact ih _ p hp n hn

/-- C63, proved part: if no reset in the history raised, an executed step was preceded by a completed reset.
Missing: histories with a raising reset, where the claim is false (`c63_failed_reset_violated`). -/
theorem c63_completed_reset_partial (C : Comps σ A S R O K) (c : σ) (ops : List (Op σ A)) (a : A)
    (hr : ∀ p ∈ (run C (Env.init C c) ops).2, ∀ n e, p ≠ (Op.reset n, Out.resetRaised e))
    (h : ((run C (Env.init C c) ops).1.step C a).2 ≠ .rejected) :
    stepAllowedStrict (run C (Env.init C c) ops).2 = true := by
  have := c01_executed_needs_reset C c ops a h
  unfold stepAllowedStrict
  rw [fold_strict_eq _ _ hr (run_reset_out C _ ops)]
  exact this

/-! ## C05 Observation follows the state filter -/

/-- What a filtered quantity must be: for every requested name, the value that belongs to that name. -/
def valueOf {N α : Type*} [DecidableEq N] (names : List N) (x : List α) (n : N) : Option α :=
  ((names.zip x).find? (fun p => p.1 = n)).map Prod.snd

theorem valueOf_eq {N α : Type*} [DecidableEq N] [Inhabited α] (names : List N) (x : List α)
    (hx : x.length = names.length) (n : N) (hn : n ∈ names) :
    valueOf names x n = some (x.getD (names.idxOf n) default) := by
  induction names generalizing x with
  | nil => simp at hn
  | cons m names ih =>
    cases x with
    | nil => simp at hx
    | cons y x =>
      simp only [List.length_cons, Nat.add_right_cancel_iff] at hx
      by_cases hmn : m = n
      · subst hmn; simp [valueOf]
      · have hn' : n ∈ names := by
          rcases List.mem_cons.1 hn with h | h
          · exact absurd h.symm hmn
          · exact h
        have := ih x hx hn'
        rw [show (m :: names).idxOf n = names.idxOf n + 1 by rw [List.idxOf_cons, beq_false_of_ne hmn]; rfl]
        simp only [valueOf, List.zip_cons_cons, List.find?_cons, hmn, decide_false, List.getD_cons_succ]
        simpa [valueOf] using this

theorem indexOf_mem {N : Type*} [DecidableEq N] {names : List N} {n : N} (h : n ∈ names) :
    indexOf names n = .ok (names.idxOf n) := by simp [indexOf, h]

theorem indexOf_not_mem {N : Type*} [DecidableEq N] {names : List N} {n : N} (h : n ∉ names) :
    indexOf names n = .error .value := by simp [indexOf, h]

theorem mapM_index {N : Type*} [DecidableEq N] (names l : List N) (idx : List ℕ)
    (h : l.mapM (indexOf names) = .ok idx) : idx = l.map names.idxOf ∧ ∀ n ∈ l, n ∈ names := by
  induction l generalizing idx with
  | nil =>
    simp only [List.mapM_nil] at h
    cases h; simp
  | cons a l ih =>
    by_cases ha : a ∈ names
    · cases hl : l.mapM (indexOf names) with
      | error e => simp [List.mapM_cons, indexOf_mem ha, hl, bind, Except.bind] at h
      | ok is =>
        simp only [List.mapM_cons, indexOf_mem ha, hl, bind, Except.bind, pure, Except.pure, Except.ok.injEq] at h
        obtain ⟨h1, h2⟩ := ih is hl
        subst h
        refine ⟨by rw [h1]; rfl, ?_⟩
        intro n hn
        rcases List.mem_cons.1 hn with rfl | hn
        · exact ha
        · exact h2 n hn
    · simp [List.mapM_cons, indexOf_not_mem ha, bind, Except.bind] at h

theorem mapM_index_ok {N : Type*} [DecidableEq N] (names l : List N) (h : ∀ n ∈ l, n ∈ names) :
    l.mapM (indexOf names) = .ok (l.map names.idxOf) := by
  induction l with
  | nil => rfl
  | cons a l ih =>
    have := ih (fun n hn => h n (by simp [hn]))
    simp [List.mapM_cons, indexOf_mem (h a (by simp)), this, bind, Except.bind, pure, Except.pure]

/-- C05: with a non-empty filter of known names, every quantity that is indexed with the filter (state, limits, nominal
state, bounds, names) has exactly the named entries in the order of the filter, repetitions included. -/
theorem c05_filter {N α : Type*} [DecidableEq N] [Inhabited α] (names l : List N) (hl : l ≠ []) (idx : List ℕ)
    (h : stateFilter names (some l) = .ok idx) (x : List α) (hx : x.length = names.length) :
    (take x idx).map some = l.map (valueOf names x) := by
  have h : l.mapM (indexOf names) = .ok idx := by
    cases l with
    | nil => exact absurd rfl hl
    | cons a l => exact h
  obtain ⟨rfl, hmem⟩ := mapM_index names l idx h
  simp only [take, List.map_map]
  apply List.map_congr_left
  intro n hn
  simp only [Function.comp]
  rw [valueOf_eq names x hx n (hmem n hn)]

/-- C05 (names): in particular the reported state names are the filter itself. -/
theorem c05_names {N : Type*} [DecidableEq N] [Inhabited N] (names l : List N) (hl : l ≠ []) (idx : List ℕ)
    (h : stateFilter names (some l) = .ok idx) : take names idx = l := by
  have h : l.mapM (indexOf names) = .ok idx := by
    cases l with
    | nil => exact absurd rfl hl
    | cons a l => exact h
  obtain ⟨rfl, hmem⟩ := mapM_index names l idx h
  simp only [take, List.map_map]
  conv_rhs => rw [← List.map_id l]
  apply List.map_congr_left
  intro n hn
  have := List.idxOf_lt_length_of_mem (hmem n hn)
  simp [Function.comp, List.getD_eq_getElem?_getD, List.getElem?_eq_getElem this]

/-- C05 (rejection): construction succeeds iff every requested name is a state name. -/
theorem c05_unknown {N : Type*} [DecidableEq N] (names l : List N) :
    (∃ idx, stateFilter names (some l) = .ok idx) ↔ ∀ n ∈ l, n ∈ names := by
  constructor
  · rintro ⟨idx, h⟩ n hn
    cases l with
    | nil => simp at hn
    | cons a l => exact (mapM_index names (a :: l) idx h).2 n hn
  · intro h
    cases l with
    | nil => exact ⟨_, mapM_index_ok names names (fun _ h => h)⟩
    | cons a l => exact ⟨_, mapM_index_ok names (a :: l) h⟩

/-- C05 (no filter): without a filter (or with an empty one) the complete state is observed, if the names are distinct. -/
theorem c05_all {N α : Type*} [DecidableEq N] [Inhabited α] (names : List N) (hn : names.Nodup) (filter : Option (List N))
    (hf : filter = none ∨ filter = some []) (x : List α) (hx : x.length = names.length) :
    ∃ idx, stateFilter names filter = .ok idx ∧ take x idx = x := by
  refine ⟨names.map names.idxOf, ?_, ?_⟩
  · rcases hf with rfl | rfl <;> exact mapM_index_ok names names (fun _ h => h)
  · simp only [take, List.map_map]
    apply List.ext_getElem
    · simp [hx]
    · intro i h1 h2
      simp only [List.length_map] at h1
      simp [List.Nodup.idxOf_getElem hn, h2]

example : stateFilter ["omega", "torque", "i", "u", "u_sup"] (some ["i", "omega", "i"]) = .ok [2, 0, 2] := by
  simp [stateFilter, indexOf, List.idxOf, List.findIdx, List.findIdx.go, bind, Except.bind, pure, Except.pure]

end GEM.Props
