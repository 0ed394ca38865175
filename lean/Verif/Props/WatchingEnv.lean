import Verif.Props.Watching

/-!
# C133: environments with wrappers that add states
-/

set_option linter.unusedSectionVars false

namespace GEM.Props

open GEM GEM.Assembly GEM.Wrap GEM.Motor GEM.Refs GEM.Reward GEM.Utils GEM.Constr GEM.Core

noncomputable section

variable {σ σ' A : Type}

/-! ## Environments in step with each other -/

/-- Modules that do the same, up to relations between their attributes, states and references. -/
structure Lock (C : Comps σ A (List ℝ) (List ℝ) (List ℝ) ℝ) (C' : Comps σ' A (List ℝ) (List ℝ) (List ℝ) ℝ) (T : σ → σ' → Prop)
    (Q P V : List ℝ → List ℝ → Prop) : Prop where
  seed : ∀ n x x', T x x' → T (C.seed n x) (C'.seed n x')
  psReset : ∀ x x', T x x' → Paired T Q (C.psReset x) (C'.psReset x')
  refReset : ∀ x x' s s', T x x' → Q s s' → Paired T (fun a b => P a.1 b.1 ∧ b.2 = a.2) (C.refReset x s) (C'.refReset x' s')
  rewReset : ∀ x x' s s' r r', T x x' → T (C.rewReset x s r) (C'.rewReset x' s' r')
  psK : ∀ x x', T x x' → C'.psK x' = C.psK x
  simulate : ∀ x x' a, T x x' → Paired T Q (C.simulate x a) (C'.simulate x' a)
  getRef : ∀ x x' s s', T x x' → Q s s' → Paired T P (C.getRef x s) (C'.getRef x' s')
  check : ∀ x x' s s', T x x' → Q s s' → Paired T (· = ·) (C.check x s) (C'.check x' s')
  reward : ∀ x x' s s' r r' k a d, T x x' → Q s s' → P r r' → Paired T (· = ·) (C.reward x s r k a d) (C'.reward x' s' r' k a d)
  refObs : ∀ x x' s s', T x x' → Q s s' → Paired T (· = ·) (C.refObs x s) (C'.refObs x' s')
  observe : ∀ s s', Q s s' → V (C.observe s) (C'.observe s')
  onCb : ∀ i e x, C.onCb i e x = x
  onCb' : ∀ i e x, C'.onCb i e x = x

variable {C : Comps σ A (List ℝ) (List ℝ) (List ℝ) ℝ} {C' : Comps σ' A (List ℝ) (List ℝ) (List ℝ) ℝ} {T : σ → σ' → Prop}
  {Q P V : List ℝ → List ℝ → Prop}

/-- Environments in the same phase with related modules. -/
def SideBySide (T : σ → σ' → Prop) (env : Env σ A (List ℝ) (List ℝ) (List ℝ) ℝ) (env' : Env σ' A (List ℝ) (List ℝ) (List ℝ) ℝ) : Prop :=
  T env.comp env'.comp ∧ env'.terminated = env.terminated

theorem fire_same (h : ∀ i e x, C.onCb i e x = x) (env : Env σ A (List ℝ) (List ℝ) (List ℝ) ℝ) (e : CbEvent A (List ℝ) (List ℝ) ℝ) :
    (env.fire C e).comp = env.comp ∧ (env.fire C e).terminated = env.terminated := by
  refine ⟨?_, rfl⟩
  simp only [Env.fire]
  generalize List.range C.nCb = l
  induction l with
  | nil => rfl
  | cons i l ih => rw [List.foldl_cons, h]; exact ih

theorem inStep_fire (hL : Lock C C' T Q P V) {env : Env σ A (List ℝ) (List ℝ) (List ℝ) ℝ} {env' : Env σ' A (List ℝ) (List ℝ) (List ℝ) ℝ}
    (h : SideBySide T env env') (e e' : CbEvent A (List ℝ) (List ℝ) ℝ) : SideBySide T (env.fire C e) (env'.fire C' e') := by
  obtain ⟨h1, h2⟩ := fire_same hL.onCb env e
  obtain ⟨h3, h4⟩ := fire_same hL.onCb' env' e'
  exact ⟨by rw [h1, h3]; exact h.1, by rw [h2, h4]; exact h.2⟩

theorem inStep_call {α β : Type} {env : Env σ A (List ℝ) (List ℝ) (List ℝ) ℝ} {env' : Env σ' A (List ℝ) (List ℝ) (List ℝ) ℝ}
    (h : SideBySide T env env') {V : α → β → Prop} {r : Call σ α} {r' : Call σ' β} (hr : Paired T V r r')
    (l l' : LogEntry A (List ℝ) (List ℝ) (List ℝ) ℝ) : Paired (SideBySide T) V (env.call r l) (env'.call r' l') :=
  ⟨⟨hr.1, h.2⟩, hr.2⟩

theorem inStep_reset (hL : Lock C C' T Q P V) {env : Env σ A (List ℝ) (List ℝ) (List ℝ) ℝ} {env' : Env σ' A (List ℝ) (List ℝ) (List ℝ) ℝ}
    (h : SideBySide T env env') (n : ℕ) :
    Paired (SideBySide T) (fun a b => V a.1 b.1 ∧ b.2 = a.2) (env.reset C n) (env'.reset C' n) := by
  unfold Env.reset
  dsimp only
  have h0 : SideBySide T { comp := C.seed n env.comp, terminated := env.terminated, log := env.log ++ [.seed n] }
      { comp := C'.seed n env'.comp, terminated := env'.terminated, log := env'.log ++ [.seed n] } := ⟨hL.seed n _ _ h.1, h.2⟩
  have h1 := inStep_fire hL h0 .resetBegin .resetBegin
  refine paired_bind (inStep_call (T := T) (V := Q)
    (env := ⟨(Env.fire C _ .resetBegin).comp, false, (Env.fire C _ .resetBegin).log⟩)
    (env' := ⟨(Env.fire C' _ .resetBegin).comp, false, (Env.fire C' _ .resetBegin).log⟩) ⟨h1.1, rfl⟩ (hL.psReset _ _ h1.1) _ _) fun e e' s s' he hs => ?_
  refine paired_bind (inStep_call he (hL.refReset _ _ s s' he.1 hs) _ _) fun e e' r r' he hr => ?_
  refine paired_ok (inStep_fire hL ?_ _ _) ⟨hL.observe s s' hs, hr.2⟩
  exact ⟨hL.rewReset _ _ _ _ _ _ he.1, he.2⟩

theorem inStep_step (hL : Lock C C' T Q P V) {env : Env σ A (List ℝ) (List ℝ) (List ℝ) ℝ} {env' : Env σ' A (List ℝ) (List ℝ) (List ℝ) ℝ}
    (h : SideBySide T env env') (a : A) :
    Paired (SideBySide T) (fun x y => ∃ s s' o r d, x = ⟨(s, o), r, d, false⟩ ∧ y = ⟨(s', o), r, d, false⟩ ∧ V s s')
      (env.stepBody C a) (env'.stepBody C' a) := by
  unfold Env.stepBody
  dsimp only
  have h1 := inStep_fire hL h (.stepBegin (C.psK env.comp) a) (.stepBegin (C'.psK env'.comp) a)
  refine paired_bind (inStep_call h1 (hL.simulate _ _ a h1.1) _ _) fun e e' s s' he hs => ?_
  refine paired_bind (inStep_call he (hL.getRef _ _ s s' he.1 hs) _ _) fun e e' r r' he hr => ?_
  refine paired_bind (inStep_call he (hL.check _ _ s s' he.1 hs) _ _) fun e e' d d' he hd => ?_
  subst hd
  rw [hL.psK _ _ he.1]
  refine paired_bind (inStep_call he (hL.reward _ _ s s' r r' _ a d he.1 hs hr) _ _) fun e e' w w' he hw => ?_
  subst hw
  refine paired_bind (inStep_call (T := T) (V := (· = ·)) (env := ⟨e.comp, decide (1 ≤ d), e.log⟩) (env' := ⟨e'.comp, decide (1 ≤ d), e'.log⟩)
    ⟨he.1, rfl⟩ (hL.refObs _ _ s s' he.1 hs) _ _) fun e e' o o' he ho => ?_
  subst ho
  have h2 := inStep_fire hL he (.stepEnd (C.psK e.comp) s r w e.terminated) (.stepEnd (C'.psK e'.comp) s' r' w e'.terminated)
  exact paired_ok h2 ⟨_, _, _, _, _, rfl, by rw [h2.2], hL.observe s s' hs⟩

theorem inStep_apply (hL : Lock C C' T Q P V) {env : Env σ A (List ℝ) (List ℝ) (List ℝ) ℝ} {env' : Env σ' A (List ℝ) (List ℝ) (List ℝ) ℝ}
    (h : SideBySide T env env') (u : Use A) :
    SideBySide T (Core.apply C env (u.op σ)).1 (Core.apply C' env' (u.op σ')).1 ∧ Agree V (Core.apply C env (u.op σ)).2 (Core.apply C' env' (u.op σ')).2 := by
  cases u with
  | reset n =>
    obtain ⟨h1, h2⟩ := inStep_reset hL h n
    refine ⟨h1, ?_⟩
    simp only [Use.op, Core.apply]
    revert h2
    cases (env.reset C n).2 with
    | error e =>
      cases (env'.reset C' n).2 with
      | error e' => rintro rfl; exact .resetRaised e
      | ok y => exact False.elim
    | ok x =>
      cases (env'.reset C' n).2 with
      | error e' => exact False.elim
      | ok y =>
        obtain ⟨s, o⟩ := x
        obtain ⟨s', o'⟩ := y
        rintro ⟨hs, ho⟩
        simp only at ho hs
        subst ho
        exact .reset _ _ _ hs
  | step a =>
    simp only [Use.op, Core.apply, Env.step, h.2]
    split_ifs
    · exact ⟨h, .rejected⟩
    · obtain ⟨h1, h2⟩ := inStep_step hL h a
      refine ⟨h1, ?_⟩
      revert h2
      cases (env.stepBody C a).2 with
      | error e =>
        cases (env'.stepBody C' a).2 with
        | error e' => rintro rfl; exact .raised e
        | ok y => exact False.elim
      | ok x =>
        cases (env'.stepBody C' a).2 with
        | error e' => exact False.elim
        | ok y =>
          rintro ⟨s, s', o, r, d, rfl, rfl, hs⟩
          exact .done _ _ _ _ _ _ hs
  | close => exact ⟨inStep_fire hL h _ _, .none⟩

/-- Environments in step stay in step and show the same. -/
theorem inStep_outcomes (hL : Lock C C' T Q P V) (uses : List (Use A)) {env : Env σ A (List ℝ) (List ℝ) (List ℝ) ℝ}
    {env' : Env σ' A (List ℝ) (List ℝ) (List ℝ) ℝ} (h : SideBySide T env env') :
    List.Forall₂ (Agree V) (outcomes C env uses) (outcomes C' env' uses) := by
  induction uses generalizing env env' with
  | nil => exact .nil
  | cons u uses ih =>
    obtain ⟨h1, h2⟩ := inStep_apply hL h u
    exact .cons h2 (ih h1)

/-! ## Monitor, reward and filter for more states -/

section modules

variable {N n : ℕ} {names new : List String}

theorem array_padded (lower : String → String) (hnew : ∀ k ∈ new, k ∉ names) (d : List (String × ℝ)) {w : List ℝ}
    (h : setStateArray lower names (.dict d) = .ok w) :
    setStateArray lower (names ++ new) (.dict d) = .ok (w ++ List.replicate new.length 0) := by
  simp only [setStateArray, stateDictToStateArray] at h ⊢
  split at h
  · rename_i hall
    simp only [Except.ok.injEq] at h
    subst h
    rw [if_pos fun p hp => List.mem_append_left _ (hall p hp), List.map_append, List.zipWith_append (by simp)]
    refine congrArg _ (congrArg _ ?_)
    refine List.eq_replicate_iff.2 ⟨by simp, fun b hb => ?_⟩
    obtain ⟨i, hi, rfl⟩ := List.mem_iff_getElem.1 hb
    simp only [List.length_zipWith, List.length_map, min_self] at hi
    simp only [List.getElem_zipWith, List.getElem_map]
    rw [(lookup_none _ _).2 fun p hp e => hnew _ (List.getElem_mem hi) (by rw [← e]; exact hall p hp)]
  · simp at h

theorem limitMask_padded (lower : String → String) (allStates : String) (hnew : ∀ k ∈ new, k ∉ names) {obs : List String}
    (hobs : allStates ∉ obs) {m : List Bool} (h : limitMask (K := ℝ) lower allStates names (some obs) = .ok m) :
    limitMask (K := ℝ) lower allStates (names ++ new) (some obs) = .ok (m ++ List.replicate new.length false) := by
  simp only [limitMask, if_neg hobs] at h ⊢
  cases e : setStateArray lower names (.dict (obs.map fun n => (n, (1 : ℝ)))) with
  | error e' => rw [e] at h; cases h
  | ok a =>
    rw [e] at h
    rw [array_padded lower hnew _ e]
    simp only [Except.ok.injEq] at h
    simp [← h]

theorem limitCall_padded {m : List Bool} {s s' : List ℝ} (h : Longer m.length n s s') :
    limitCall (m ++ List.replicate n false) s' = limitCall m s := by
  obtain ⟨h1, e, h2, rfl⟩ := h
  have h3 : ((e.zip (List.replicate n false)).filter fun p => p.2) = [] := by
    rw [List.filter_eq_nil_iff]
    intro p hp
    have := List.of_mem_zip (a := p.1) (b := p.2) hp
    have := List.eq_of_mem_replicate this.2
    simp [this]
  simp only [limitCall, List.length_append, h1, h2, List.length_replicate, List.zip_append h1, List.filter_append, h3, List.append_nil]

theorem getD_longer {s s' : List ℝ} (h : Longer N n s s') {i : ℕ} (hi : i < N) (x : ℝ) : s'.getD i x = s.getD i x := by
  obtain ⟨h1, e, h2, rfl⟩ := h
  simp only [List.getD_eq_getElem?_getD]
  rw [List.getElem?_append_left (by omega)]

theorem idxOf_longer {k : String} (h : k ∈ names) : (names ++ new).idxOf k = names.idxOf k := by
  rw [List.idxOf_append, if_pos h]

theorem squared_padded {high high' limits limits' : List ℝ} (hh : Longer names.length n high high') (hl : Longer names.length n limits limits')
    {states : List String} {q : List ℕ × List ℝ × Bool} (h : squaredModules names high limits states = .ok q) :
    squaredModules (names ++ new) high' limits' states = .ok q ∧ ∀ i ∈ q.1, i < names.length := by
  simp only [squaredModules] at h ⊢
  split at h
  · rename_i hall
    simp only [Except.ok.injEq] at h
    subst h
    have hi : states.map (names ++ new).idxOf = states.map names.idxOf := List.map_congr_left fun k hk => idxOf_longer (hall k hk)
    have hlt : ∀ i ∈ states.map names.idxOf, i < names.length := by
      intro i hi
      obtain ⟨k, hk, rfl⟩ := List.mem_map.1 hi
      exact List.idxOf_lt_length_of_mem (hall k hk)
    rw [if_pos fun s hs => List.mem_append_left _ (hall s hs), hi]
    refine ⟨?_, hlt⟩
    have e1 : (states.map names.idxOf).map (fun i => limits'.getD i 0) = (states.map names.idxOf).map (fun i => limits.getD i 0) :=
      List.map_congr_left fun i hi => getD_longer hl (hlt i hi) 0
    have e2 : (states.map names.idxOf).map (fun i => high'.getD i 0) = (states.map names.idxOf).map (fun i => high.getD i 0) :=
      List.map_congr_left fun i hi => getD_longer hh (hlt i hi) 0
    rw [e1, e2]
  · simp at h

theorem squaredCall_padded {q : List ℕ × List ℝ × Bool} (hq : ∀ i ∈ q.1, i < N) {s s' : List ℝ} (h : Longer N n s s') :
    squaredCall q s' = squaredCall q s := by
  have : q.1.map (fun i => s'.getD i 0) = q.1.map (fun i => s.getD i 0) := List.map_congr_left fun i hi => getD_longer h (hq i hi) 0
  simp only [squaredCall, this]

theorem squares_padded {high high' limits limits' : List ℝ} (hh : Longer names.length n high high') (hl : Longer names.length n limits limits')
    {l : List (List String)} {qs : List (List ℕ × List ℝ × Bool)} (h : l.mapM (squaredModules names high limits) = .ok qs) :
    l.mapM (squaredModules (names ++ new) high' limits') = .ok qs ∧ ∀ q ∈ qs, ∀ i ∈ q.1, i < names.length := by
  induction l generalizing qs with
  | nil => cases h; exact ⟨rfl, by simp⟩
  | cons a l ih =>
    rw [List.mapM_cons] at h ⊢
    cases e : squaredModules names high limits a with
    | error e' => rw [e] at h; cases h
    | ok q =>
      rw [e] at h
      cases e2 : l.mapM (squaredModules names high limits) with
      | error e' => rw [e2] at h; cases h
      | ok qs' =>
        rw [e2] at h
        cases h
        obtain ⟨h1, h2⟩ := squared_padded (new := new) hh hl e
        obtain ⟨h3, h4⟩ := ih e2
        exact ⟨by rw [h1, h3]; rfl, fun x hx => by
          rcases List.mem_cons.1 hx with rfl | hx
          · exact h2
          · exact h4 x hx⟩

theorem limitArgs_of (l : List String) (fs : List (List ℝ → ℝ)) :
    limitArgs (l.map Arg.name ++ fs.map Arg.constr) = l ∧ additionalArgs (l.map (Arg.name (K := ℝ)) ++ fs.map Arg.constr) = fs := by
  have h1 : limitArgs (fs.map (Arg.constr (N := String))) = [] ∧ additionalArgs (fs.map (Arg.constr (N := String))) = fs := by
    induction fs with
    | nil => exact ⟨rfl, rfl⟩
    | cons f fs ih => exact ⟨ih.1, congrArg (f :: ·) ih.2⟩
  induction l with
  | nil => exact h1
  | cons a l ih => exact ⟨congrArg (a :: ·) ih.1, ih.2⟩

theorem monitor_padded (lower : String → String) (allStates : String) (hnew : ∀ k ∈ new, k ∉ names) {limited : List String}
    (hobs : allStates ∉ limited) {qs : List (List ℕ × List ℝ × Bool)} (hqs : ∀ q ∈ qs, ∀ i ∈ q.1, i < names.length) {m : Monitor (List ℝ) ℝ}
    (h : envMonitor lower allStates names (limited.map .name ++ qs.map fun q => .constr (squaredCall q)) = .ok m) :
    ∃ m', envMonitor lower allStates (names ++ new) (limited.map .name ++ qs.map fun q => .constr (squaredCall q)) = .ok m' ∧
      ∀ s s', Longer names.length new.length s s' → m'.check s' = m.check s := by
  obtain ⟨a1, a2⟩ := limitArgs_of limited (qs.map squaredCall)
  rw [List.map_map] at a1 a2
  have key : ∀ s s', Longer names.length new.length s s' → (qs.map squaredCall).map (fun c => c s') = (qs.map squaredCall).map fun c => c s := by
    intro s s' hs
    rw [List.map_map, List.map_map]
    exact List.map_congr_left fun q hq => squaredCall_padded (hqs q hq) hs
  unfold envMonitor at h ⊢
  dsimp only at h ⊢
  erw [a1, a2] at h ⊢
  by_cases h0 : limited = []
  · rw [if_pos h0] at h ⊢
    simp only [Except.ok.injEq] at h
    subst h
    refine ⟨_, rfl, fun s s' hs => ?_⟩
    simp only [Monitor.check, key s s' hs]
  · rw [if_neg h0] at h ⊢
    cases e : limitMask (K := ℝ) lower allStates names (some limited) with
    | error e' => rw [e] at h; cases h
    | ok mask =>
      rw [e] at h
      rw [limitMask_padded lower allStates hnew hobs e]
      simp only [Except.ok.injEq] at h
      subst h
      have hm : mask.length = names.length := by
        simp only [limitMask, if_neg hobs] at e
        split at e
        · rename_i a ha
          simp only [Except.ok.injEq] at e
          rw [← e, List.length_map, setStateArray_length _ _ _ _ ha]
        · cases e
      refine ⟨_, rfl, fun s s' hs => ?_⟩
      have hc := limitCall_padded (m := mask) (n := new.length) (hm ▸ hs)
      have hne : ∀ f, qs.map squaredCall ++ [f] ≠ [] := fun f => by simp
      simp only [Monitor.check, List.map_append, key s s' hs, List.map_cons, List.map_nil, hc]
      cases qs <;> rfl

theorem terms_padded : ∀ (w n l s r w' n' l' s' r' : List ℝ), n.length = w.length → l.length = w.length → s.length = w.length →
    r.length = w.length → (∀ x ∈ w', x = 0) → (terms (w ++ w') (n ++ n') (l ++ l') (s ++ s') (r ++ r')).sum = (terms w n l s r).sum
  | [], n, l, s, r, w', n', l', s', r', h1, h2, h3, h4, h5 => by
    rw [List.length_nil, List.length_eq_zero_iff] at h1 h2 h3 h4
    subst h1 h2 h3 h4
    simp only [List.nil_append, terms, List.sum_nil]
    have : ∀ (w' n' l' s' r' : List ℝ), (∀ x ∈ w', x = 0) → (terms w' n' l' s' r').sum = 0 := by
      intro w'
      induction w' with
      | nil => intros; simp [terms]
      | cons x w' ih =>
        intro n' l' s' r' h
        cases n' with
        | nil => simp [terms]
        | cons n n' =>
        cases l' with
        | nil => simp [terms]
        | cons l l' =>
        cases s' with
        | nil => simp [terms]
        | cons s s' =>
        cases r' with
        | nil => simp [terms]
        | cons r r' =>
          simp only [terms, List.sum_cons, ih _ _ _ _ fun y hy => h y (List.mem_cons_of_mem _ hy), term, h x List.mem_cons_self, zero_mul, add_zero]
    exact this w' n' l' s' r' h5
  | w :: ws, n :: ns, l :: ls, s :: ss, r :: rs, w', n', l', s', r', h1, h2, h3, h4, h5 => by
    simp only [List.cons_append, terms, List.sum_cons]
    rw [terms_padded ws ns ls ss rs w' n' l' s' r' (by simpa using h1) (by simpa using h2) (by simpa using h3) (by simpa using h4) h5]
  | _ :: _, [], _, _, _, _, _, _, _, _, h1, _, _, _, _ => by simp at h1
  | _ :: _, _, [], _, _, _, _, _, _, _, _, h1, _, _, _ => by simp at h1
  | _ :: _, _, _, [], _, _, _, _, _, _, _, _, h1, _, _ => by simp at h1
  | _ :: _, _, _, _, [], _, _, _, _, _, _, _, _, h1, _ => by simp at h1

theorem power_padded (lower : String → String) (hnew : ∀ k ∈ new, k ∉ names) {power : Input String ℝ}
    (hp : (∃ d, power = .dict d) ∨ ∃ x, power = .scalar x) {p : List ℝ} (h : setStateArray lower names power = .ok p) :
    ∃ e : List ℝ, e.length = new.length ∧ setStateArray lower (names ++ new) power = .ok (p ++ e) := by
  rcases hp with ⟨d, rfl⟩ | ⟨x, rfl⟩
  · exact ⟨_, by simp, array_padded lower hnew d h⟩
  · simp only [setStateArray, Except.ok.injEq] at h ⊢
    subst h
    exact ⟨new.map fun _ => x, by simp, by simp⟩

theorem selected_padded {ref : List Bool} (h : ref.length = names.length) :
    selected (names ++ new) (ref ++ List.replicate new.length false) = selected names ref := by
  have h3 : ((new.zip (List.replicate new.length false)).filter fun p => p.2) = [] := by
    rw [List.filter_eq_nil_iff]
    intro p hp
    have := List.of_mem_zip (a := p.1) (b := p.2) hp
    have := List.eq_of_mem_replicate this.2
    simp [this]
  simp only [selected, List.zip_append h.symm, List.filter_append, h3, List.append_nil]

theorem reward_padded (lower : String → String) (hnew : ∀ k ∈ new, k ∉ names) {low high low' high' : List ℝ} {ref : List Bool}
    (hlow : Longer names.length new.length low low') (hhigh : Longer names.length new.length high high') (href : ref.length = names.length)
    (weights : Option (Input String ℝ)) (normed : Bool) (violation : Option ℝ) (gamma : ℝ) (power : Input String ℝ) (bias : Bias)
    (hw : ByName weights ref power) {w : Wse String}
    (h : setModules lower (Wse.init weights normed violation gamma power bias) ⟨names, low, high, ref⟩ = .ok w) :
    ∃ w', setModules lower (Wse.init weights normed violation gamma power bias)
        ⟨names ++ new, low', high', ref ++ List.replicate new.length false⟩ = .ok w' ∧
      ∀ s s' r r' d, Longer names.length new.length s s' → Padded names.length new.length r r' →
        Reward.reward w' s' r' d = Reward.reward w s r d := by
  obtain ⟨p, v, x, h1, h2, h3, rfl⟩ := setModules_spec _ _ _ _ _ _ _ _ _ h
  simp only at h1 h2
  obtain ⟨e, he, h1'⟩ := power_padded lower hnew hw.2 h1
  have h2' : setStateArray lower (names ++ new)
      (weights.getD (defaultWeights ⟨names ++ new, low', high', ref ++ List.replicate new.length false⟩)) =
      .ok (v ++ List.replicate new.length 0) := by
    rcases hw.1 with ⟨d, rfl⟩ | ⟨rfl, hr⟩
    · exact array_padded lower hnew d h2
    · simp only [Option.getD_none, defaultWeights, hr, if_true, uniformDict] at h2
      simp only [Option.getD_none, defaultWeights, List.any_append, hr, Bool.true_or, if_true, selected_padded href, uniformDict]
      exact array_padded lower hnew _ h2
  have hsum : (v ++ List.replicate new.length 0).sum = v.sum := by simp
  have hwa : weightArray lower ⟨names ++ new, low', high', ref ++ List.replicate new.length false⟩ (.arg weights) =
      .ok (some (v ++ List.replicate new.length 0)) := by
    cases weights with
    | none => simp only [weightArray]; simp only [Option.getD_none] at h2'; rw [h2']; rfl
    | some a => simp only [weightArray]; simp only [Option.getD_some] at h2'; rw [h2']; rfl
  have hv : v.length = names.length := setStateArray_length _ _ _ _ h2
  have hp : p.length = names.length := setStateArray_length _ _ _ _ h1
  obtain ⟨l1, el, l2, rfl⟩ := hlow
  obtain ⟨u1, eu, u2, rfl⟩ := hhigh
  refine ⟨_, by
    simp only [setModules, Wse.init, h1', hwa, finish, hsum]
    simp only [Wse.init] at h3
    have h3' : ∀ o o' : Wse String, o.violation = o'.violation → o.normed = o'.normed → o.gamma = o'.gamma → ∀ r, violationOf o r = violationOf o' r := by
      intro o o' e1 e2 e3 r
      simp only [violationOf, e1, e2, e3]
    have h4 : violationOf ⟨.ndarray (p ++ e), .arg weights, some (List.zipWith (· - ·) (high ++ eu) (low ++ el)), normed, gamma, bias,
        violation.map .fin, none⟩ (if normed then -1 + bias.value (if normed then 1 else v.sum) else -v.sum + bias.value (if normed then 1 else v.sum)) = .ok x := by
      rw [← h3]
      cases normed <;> exact h3' _ _ rfl rfl rfl _
    rw [h4]
    rfl, ?_⟩
  intro s s' r r' d hs hr
  obtain ⟨s1, es, s2, rfl⟩ := hs
  obtain ⟨r1, rfl⟩ := hr
  have hz : List.zipWith (fun x1 x2 => x1 - x2) (high ++ eu) (low ++ el) =
      List.zipWith (fun x1 x2 => x1 - x2) high low ++ List.zipWith (fun x1 x2 => x1 - x2) eu el := List.zipWith_append (by rw [u1, l1])
  have key : ∀ w0 : List ℝ, w0.length = names.length → ∀ e0 : List ℝ, e0.length = new.length → (∀ y ∈ e0, y = 0) →
      (terms (w0 ++ e0) (p ++ e) (List.zipWith (fun x1 x2 => x1 - x2) (high ++ eu) (low ++ el)) (s ++ es) (r ++ List.replicate new.length 0)).sum =
        (terms w0 p (List.zipWith (fun x1 x2 => x1 - x2) high low) s r).sum := by
    intro w0 hw0 e0 _ hz0
    rw [hz]
    exact terms_padded _ _ _ _ _ _ _ _ _ _ (by rw [hp, hw0]) (by simp [u1, l1, hw0]) (by rw [s1, hw0]) (by rw [r1, hw0]) hz0
  cases normed with
  | false =>
    simp only [Reward.reward, wse, Bool.false_eq_true, if_false]
    rw [if_pos (by simp [s1, s2, u1, u2, l1, l2, r1, hp, he, hv]), if_pos (by simp [s1, u1, l1, r1, hp, hv]),
      key v hv _ (by simp) (fun y hy => List.eq_of_mem_replicate hy)]
  | true =>
    simp only [Reward.reward, wse, if_true, normWeights, hsum]
    by_cases h0 : v.sum = 0
    · simp only [h0, if_true]
    · simp only [h0, if_false, List.map_append]
      rw [if_pos (by simp [s1, s2, u1, u2, l1, l2, r1, hp, he, hv]), if_pos (by simp [s1, u1, l1, r1, hp, hv]),
        key _ (by simp [hv]) _ (by simp) (fun y hy => by
          obtain ⟨z, hz, rfl⟩ := List.mem_map.1 hy
          rw [List.eq_of_mem_replicate hz, zero_div])]

theorem filter_padded {filter : Option (List String)} {idx : List ℕ} (h : stateFilter names filter = .ok idx) :
    ∃ idx', stateFilter (names ++ new) filter = .ok idx' ∧
      ∀ s s', Longer names.length new.length s s' → take s idx <+: take s' idx' := by
  have key : ∀ l : List String, l.mapM (Core.indexOf names) = .ok idx → l.mapM (Core.indexOf (names ++ new)) = .ok idx ∧
      ∀ s s', Longer names.length new.length s s' → take s' idx = take s idx := by
    intro l hl
    obtain ⟨rfl, h1⟩ := mapM_index names l idx hl
    refine ⟨?_, fun s s' hs => ?_⟩
    · rw [mapM_index_ok _ _ fun k hk => List.mem_append_left _ (h1 k hk)]
      exact congrArg _ (List.map_congr_left fun k hk => idxOf_longer (h1 k hk))
    · refine List.map_congr_left fun i hi => ?_
      obtain ⟨k, hk, rfl⟩ := List.mem_map.1 hi
      exact getD_longer hs (List.idxOf_lt_length_of_mem (h1 k hk)) _
  have all : names.mapM (Core.indexOf names) = .ok idx → ∃ idx', (names ++ new).mapM (Core.indexOf (names ++ new)) = .ok idx' ∧
      ∀ s s', Longer names.length new.length s s' → take s idx <+: take s' idx' := by
    intro hl
    obtain ⟨h1, h2⟩ := key names hl
    refine ⟨_, mapM_index_ok _ _ fun k hk => hk, fun s s' hs => ?_⟩
    rw [List.map_append]
    obtain ⟨e, -⟩ := mapM_index (names ++ new) names idx h1
    rw [← e]
    simp only [take, List.map_append]
    rw [show List.map (fun i => s.getD i default) idx = List.map (fun i => s'.getD i default) idx from (h2 s s' hs).symm]
    exact List.prefix_append _ _
  cases filter with
  | none => exact all h
  | some l =>
    cases l with
    | nil => exact all h
    | cons a l =>
      obtain ⟨h1, h2⟩ := key (a :: l) h
      exact ⟨idx, h1, fun s s' hs => by rw [h2 s s' hs]⟩

variable {Y Y' U U' S S' C C' P P' G G' τ τ' B : Type}

/-- Monitor, reward function and filter of an environment with more states. -/
theorem modules_padded {c : Setup Y U A S C P G τ} {c' : Setup Y' U' B S' C' P' G' τ'} {w : Wse String} {m : Monitor (List ℝ) ℝ} {idx : List ℕ}
    (h : modules c = .ok (w, m, idx)) (hnames : c'.names = c.names ++ new) (hnew : ∀ k ∈ new, k ∉ c.names)
    (hlow : Longer c.names.length new.length c.low c'.low) (hhigh : Longer c.names.length new.length c.high c'.high)
    (hlim : Longer c.names.length new.length c.limits c'.limits) (hwidth : c.gen.referenced.length = c.names.length)
    (href : c'.gen.referenced = c.gen.referenced ++ List.replicate new.length false) (hlower : c'.lower = c.lower)
    (hall : c'.allStates = c.allStates) (hlimited : c'.limited = c.limited) (hsq : c'.squares = c.squares) (hfil : c'.filter = c.filter)
    (hwse : c'.wse = c.wse) (hna : c.allStates ∉ c.limited) (weights : Option (Input String ℝ)) (normed : Bool) (violation : Option ℝ)
    (gamma : ℝ) (power : Input String ℝ) (bias : Bias) (hinit : c.wse = Wse.init weights normed violation gamma power bias)
    (hby : ByName weights c.gen.referenced power) :
    ∃ w' m' idx', modules c' = .ok (w', m', idx') ∧ ∀ s s', Longer c.names.length new.length s s' →
      m'.check s' = m.check s ∧ take s idx <+: take s' idx' ∧
      ∀ r r' d, Padded c.names.length new.length r r' → Reward.reward w' s' r' d = Reward.reward w s r d := by
  obtain ⟨qs, h1, h2, h3, h4⟩ := modules_ok h
  obtain ⟨a1, a2⟩ := squares_padded (new := new) hhigh hlim h1
  obtain ⟨m', b1, b2⟩ := monitor_padded c.lower c.allStates hnew hna a2 h2
  rw [hinit] at h3
  obtain ⟨w', c1, c2⟩ := reward_padded c.lower hnew hlow hhigh hwidth weights normed violation gamma power bias hby h3
  obtain ⟨idx', d1, d2⟩ := filter_padded (new := new) h4
  refine ⟨w', m', idx', ?_, fun s s' hs => ⟨b2 s s' hs, d2 s s' hs, fun r r' d hr => c2 s s' r r' d hs hr⟩⟩
  unfold modules
  rw [hnames, hlower, hall, hlimited, hsq, hfil, hwse, href, a1]
  simp only [b1, hinit, c1, d1]

end modules

/-! ## Environments -/

section environments

variable {Y U S C P G τ τ' : Type}

theorem renewed_lock (c : Setup Y U A S C P G τ) (nominal : List ℝ) (hc : Consistent (bare c nominal).ps) {q : Plant σ A}
    {inner : σ → Sys.St ℝ S C P × G} {ext : List (String × ℝ × ℝ)} (cq : Consistent q.ps) (ap : Appends (bare c nominal).ps q.ps ext)
    {Q : List ℝ → List ℝ → Prop} (hQ : ∀ s s', Q s s' → Longer c.names.length ext.length s s') (fo : Mirrors (bare c nominal) q inner Q)
    (hnew : ∀ e ∈ ext, e.1 ∉ c.names) {gen' : RefGen τ' ℝ} {T : τ → τ' → Prop} (hgen : Enlarges c.names.length ext.length T c.gen gen')
    {seedRef' : ℕ → τ' → τ'} (hseed : ∀ k t t', T t t' → T (c.seedRef k t) (seedRef' k t')) (hna : c.allStates ∉ c.limited)
    (weights : Option (Input String ℝ)) (normed : Bool) (violation : Option ℝ) (gamma : ℝ) (power : Input String ℝ) (bias : Bias)
    (hwse : c.wse = Wse.init weights normed violation gamma power bias) (hby : ByName weights c.gen.referenced power)
    {w : Wse String} {m : Monitor (List ℝ) ℝ} {idx : List ℕ} (hm : modules c = .ok (w, m, idx)) :
    ∃ w' m' idx', modules (c.renewed q gen' seedRef').announced = .ok (w', m', idx') ∧
      (∀ s s', Q s s' → take s idx <+: take s' idx') ∧
      ∀ V : List ℝ → List ℝ → Prop, (∀ s s', Q s s' → V (take s idx) (take s' idx')) →
        Lock (comps c w m idx) (wcomps (c.renewed q gen' seedRef') w' m' idx')
          (fun y y' => inner y'.1 = (y.sys, y.draws) ∧ T y.ref y'.2) Q (Padded c.names.length ext.length) V := by
  have h0 := hc.limits
  have h1 := hc.low
  have h2 := hc.high
  have hlen : q.ps.names.length = c.names.length + ext.length := by
    rw [ap.names]
    simp [bare]
  have hlim : Longer c.names.length (ext.map fun e : String × ℝ × ℝ => e.1).length c.limits q.ps.limits := by
    obtain ⟨e, he⟩ := ap.limits
    refine ⟨h0, e, ?_, he.symm⟩
    have := cq.limits
    rw [← he, hlen, List.length_append] at this
    simp only [bare] at h0 this
    rw [List.length_map]
    omega
  have hex : (ext.map fun e : String × ℝ × ℝ => e.1).length = ext.length := List.length_map _
  obtain ⟨w', m', idx', hm', key⟩ := modules_padded (new := ext.map fun e : String × ℝ × ℝ => e.1)
    (c' := (c.renewed q gen' seedRef').announced) hm ap.names
    (fun k hk => by obtain ⟨e, he, rfl⟩ := List.mem_map.1 hk; exact hnew e he)
    ⟨h1, ext.map fun e : String × ℝ × ℝ => e.2.1, by simp, ap.low⟩ ⟨h2, ext.map fun e : String × ℝ × ℝ => e.2.2, by simp, ap.high⟩ hlim
    hgen.width (by rw [hex]; exact hgen.referenced) rfl rfl rfl rfl rfl rfl hna weights normed violation gamma power bias hwse hby
  rw [hex] at key
  refine ⟨w', m', idx', hm', fun s s' hs => (key s s' (hQ s s' hs)).2.1, fun V hV => ?_⟩
  constructor
  · rintro n y y' ⟨g1, g2⟩
    exact ⟨by simp only [wcomps, comps, Setup.renewed]; rw [fo.seed, g1]; rfl, hseed n _ _ g2⟩
  · rintro y y' ⟨g1, g2⟩
    obtain ⟨g3, g4⟩ := fo.reset y'.1
    rw [g1] at g3 g4
    exact ⟨⟨g3, g2⟩, g4⟩
  · rintro y y' s s' ⟨g1, g2⟩ hs
    obtain ⟨g3, g4⟩ := hgen.reset _ _ s s' g2 (hQ s s' hs)
    exact ⟨⟨g1, g3⟩, g4⟩
  · rintro y y' s s' r r' hy
    exact hy
  · rintro y y' ⟨g1, -⟩
    simp only [wcomps, comps, Setup.renewed]
    rw [fo.steps, g1]
    rfl
  · rintro y y' a ⟨g1, g2⟩
    obtain ⟨g3, g4⟩ := fo.simulate y'.1 a
    rw [g1] at g3 g4
    exact ⟨⟨g3, g2⟩, g4⟩
  · rintro y y' s s' ⟨g1, g2⟩ hs
    obtain ⟨g3, g4⟩ := hgen.getRef _ _ s s' g2 (hQ s s' hs)
    exact ⟨⟨g1, g3⟩, g4⟩
  · rintro y y' s s' hy hs
    refine ⟨hy, ?_⟩
    simp only [wcomps, comps, (key s s' (hQ s s' hs)).1]
    cases m.check s <;> rfl
  · rintro y y' s s' r r' k a d hy hs hr
    refine ⟨hy, ?_⟩
    simp only [wcomps, comps, (key s s' (hQ s s' hs)).2.2 r r' d hr]
    cases number (Reward.reward w s r d) <;> rfl
  · rintro y y' s s' ⟨g1, g2⟩ hs
    obtain ⟨g3, g4⟩ := hgen.getObs _ _ s s' g2 (hQ s s' hs)
    exact ⟨⟨g1, g3⟩, g4⟩
  · intro s s' hs
    exact hV s s' hs
  · intro i e y; rfl
  · intro i e y; rfl

/-- C133: wrappers that only add states change nothing else: whatever the calls, the environment with the wrappers answers with the same
rewards, the same end of the episodes, the same references and the same exceptions as the environment without them, and the observed states
begin with those of the environment without them. -/
theorem c133_unchanged_partial (c : Setup Y U A S C P G τ) (nominal : List ℝ) (hc : Consistent (bare c nominal).ps) {q : Plant σ A}
    {inner : σ → Sys.St ℝ S C P × G} {ext : List (String × ℝ × ℝ)} (hq : Watching (bare c nominal) q inner ext)
    (hnew : ∀ e ∈ ext, e.1 ∉ c.names) {gen' : RefGen τ' ℝ} {T : τ → τ' → Prop} (hgen : Enlarges c.names.length ext.length T c.gen gen')
    {seedRef' : ℕ → τ' → τ'} (hseed : ∀ k t t', T t t' → T (c.seedRef k t) (seedRef' k t')) (hna : c.allStates ∉ c.limited)
    (weights : Option (Input String ℝ)) (normed : Bool) (violation : Option ℝ) (gamma : ℝ) (power : Input String ℝ) (bias : Bias)
    (hwse : c.wse = Wse.init weights normed violation gamma power bias) (hby : ByName weights c.gen.referenced power)
    {E : Comps (World S C P G τ) A (List ℝ) (List ℝ) (List ℝ) ℝ} (hE : build c = .ok E) :
    ∃ E', wbuild (c.renewed q gen' seedRef') = .ok E' ∧
      ∀ x x', inner x'.1 = (x.sys, x.draws) → T x.ref x'.2 →
        ∀ uses, List.Forall₂ (Agree (· <+: ·)) (outcomes E (Env.init E x) uses) (outcomes E' (Env.init E' x') uses) := by
  obtain ⟨⟨w, m, idx⟩, hm, rfl⟩ := map_ok'.1 hE
  obtain ⟨cq, ap⟩ := watching_announces hq hc
  obtain ⟨w', m', idx', hm', h1, h2⟩ := renewed_lock c nominal hc cq ap (fun _ _ h => h) (watching_follows hq hc) hnew hgen hseed hna weights normed
    violation gamma power bias hwse hby hm
  have hL := h2 (· <+: ·) h1
  exact ⟨wcomps (c.renewed q gen' seedRef') w' m' idx', by simp only [wbuild, hm', Except.map], fun x x' hx hT uses =>
    inStep_outcomes hL uses (inStep_fire hL ⟨⟨hx, hT⟩, rfl⟩ _ _)⟩

end environments

end

end GEM.Props
