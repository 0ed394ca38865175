import Mathlib.Analysis.Complex.ExponentialBounds
import Verif.Props.Voltages
import Verif.Props.WellPosed

/-!
# C123: states and rewards of running episodes
-/

set_option linter.unusedSectionVars false

namespace GEM.Props

noncomputable section

open GEM GEM.Core GEM.Sys GEM.Conv GEM.Motor GEM.Registry GEM.Limits GEM.Init GEM.Utils GEM.Refs GEM.Reward GEM.Assembly GEM.Constr

/-! ## Statement -/

/-- Every step after which the episode goes on satisfies this. -/
def OnGoing {σ A : Type} (good : StepResult (List ℝ) (List ℝ) ℝ → Prop) (history : List (Op σ A × Core.Out (List ℝ) (List ℝ) ℝ)) : Prop :=
  ∀ op r, (op, Core.Out.step (.done r)) ∈ history → r.terminated = false → good r

/-- The reward is in `reward_range` of the registered environments. -/
def RewardInRange (r : StepResult (List ℝ) (List ℝ) ℝ) : Prop := -1 ≤ r.reward ∧ r.reward ≤ 0

/-- The reported state is in the state space of the registered environments with this motor. -/
def StateInSpace (t : MotorType) (r : StepResult (List ℝ) (List ℝ) ℝ) : Prop := Refs.Within (low t) (high t) r.obs.1

/-! ## Histories with an invariant of the physical system -/

section general

variable {Y U A S C P G τ : Type} {c : Setup Y U A S C P G τ} {conv : C → Prop} {shape : Y → Prop} {space : A → Prop} {fresh ready : τ → Prop}
  {w : Wse String} {m : Monitor (List ℝ) ℝ} {idx : List ℕ}

theorem ongoing_steps (hc : Coherent c) (hm : modules c = .ok (w, m, idx))
    (ha : AcceptsAll c.p c.f c.rep c.tau c.limits c.names.length conv shape space) (hne : ∃ a, space a)
    (hstart : ∀ g, shape (c.start g).2) (hr : Provides c.gen c.low c.high fresh ready)
    (hseed : ∀ n t, fresh t → fresh (c.seedRef n t)) (J : Sys.St ℝ S C P → Prop) (I : C → Prop)
    (hJ0 : ∀ st g, I st.conv → J (Sys.reset c.p c.rep c.limits st (c.start g).2).1)
    (hIJ : ∀ st, J st → I st.conv)
    (hJ : ∀ st a, J st → J (Sys.simulate c.p c.f c.tau c.limits st a).1)
    (good : StepResult (List ℝ) (List ℝ) ℝ → Prop)
    (hgood : ∀ st a s ref r, J st → (Sys.simulate c.p c.f c.tau c.limits st a).2 = .ok s → Shows c s r.obs → Refs.Within c.low c.high ref →
      ¬ Violates c.lower c.allStates c.names c.limited c.squares s → number (Reward.reward w s ref 0) = .ok r.reward → good r)
    (x : World S C P G τ) (hx : conv x.sys.conv) (hxI : I x.sys.conv) (hf : fresh x.ref)
    (ops : List (Op (World S C P G τ) A)) (hops : ∀ op ∈ ops, Proper space op) :
    OnGoing good (Core.run (comps c w m idx) (Env.init (comps c w m idx) x) ops).2 := by
  obtain ⟨lo, hi, v, w1, w2, w3⟩ := reward_of hc hm
  have key : ∀ (ops : List (Op (World S C P G τ) A)) (_ : ∀ op ∈ ops, Proper space op) (ended : Bool)
      (env : Env (World S C P G τ) A (List ℝ) (List ℝ) (List ℝ) ℝ), Idle c conv shape space fresh ready ended env →
      I env.comp.sys.conv → (ended = false → J env.comp.sys) → OnGoing good (Core.run (comps c w m idx) env ops).2 := by
    intro ops
    induction ops with
    | nil => intro _ ended env _ _ _ op r h; simp [Core.run] at h
    | cons op ops ih =>
      intro hops ended env h hI' hJ'
      have ih := ih (fun op hop => hops op (List.mem_cons_of_mem _ hop))
      have hop := hops op List.mem_cons_self
      cases op with
      | reset n =>
        obtain ⟨env', s, o, h1, h2, h3, h4, g, h5⟩ := reset_detail hm ha hne hstart hr hseed h n
        have hj : J env'.comp.sys := by rw [h5]; exact hJ0 _ _ hI'
        have i1 := ih false env' h3 (hIJ _ hj) (fun _ => hj)
        simp only [Core.run, Core.apply, h1]
        intro op' r' hmem ht
        rcases List.mem_cons.1 hmem with e | e
        · simp at e
        · exact i1 op' r' e ht
      | step a =>
        cases ended with
        | true =>
          have i1 := ih true env h hI' hJ'
          have e : env.step (comps c w m idx) a = (env, .rejected) := by
            unfold Env.step
            rw [h.flag]
            rfl
          simp only [Core.run, Core.apply, e]
          intro op' r' hmem ht
          rcases List.mem_cons.1 hmem with e | e
          · simp at e
          · exact i1 op' r' e ht
        | false =>
          obtain ⟨env', r, s, ref, d, h1, h2, h3, h4, h5, h6, h7, h8, h9, h10, h11⟩ := step_detail hc hm ha hr
            (fun s r e f d hd => (w3 s r e f d hd).imp fun x h => h.1) h a hop
          have hj0 := hJ' rfl
          have hj : J env'.comp.sys := by
            have := hJ _ a hj0
            rwa [h2] at this
          have i1 := ih r.terminated env' h10 (hIJ _ hj) (fun _ => hj)
          simp only [Core.run, Core.apply, h1]
          intro op' r' hmem ht
          rcases List.mem_cons.1 hmem with e | e
          · simp only [Prod.mk.injEq, Core.Out.step.injEq, Env.StepOut.done.injEq] at e
            obtain ⟨-, rfl⟩ := e
            have hd : d ≠ 1 := fun hd => by rw [h8.2 hd] at ht; simp at ht
            obtain rfl := h6.resolve_right hd
            exact hgood _ a s ref r' hj0 (by rw [h2]) h3 h5 (fun hv => hd (h9.2 hv)) h7
          · exact i1 op' r' e ht
      | setRef f => exact hop.elim
      | setReward f => exact hop.elim
      | close =>
        have h' : Idle c conv shape space fresh ready ended (env.fire (comps c w m idx) .close) :=
          ⟨by rw [fire_terminated]; exact h.flag, by rw [fire_comp]; exact h.form, by rw [fire_comp]; exact h.unused,
            by rw [fire_comp]; exact h.running⟩
        have i1 := ih ended _ h' (by rw [fire_comp]; exact hI') (by rw [fire_comp]; exact hJ')
        simp only [Core.run, Core.apply]
        intro op' r' hmem ht
        rcases List.mem_cons.1 hmem with e | e
        · simp at e
        · exact i1 op' r' e ht
  refine key ops hops true _ ⟨by unfold Env.init; rw [fire_terminated], ?_, ?_, by simp⟩ ?_ (by simp)
  · unfold Env.init; rw [fire_comp]; exact hx
  · unfold Env.init; rw [fire_comp]; exact hf
  · unfold Env.init; rw [fire_comp]; exact hxI

end general

/-! ## Rewards -/

/-- The reward is in its range if the states with a weight are in the state space. -/
theorem reward_weighted {N : Type} [DecidableEq N] (lower : N → N) (m : Modules N) (hm : Reward.Sound m) (weights : Option (Input N ℝ))
    (normed : Bool) (violation : Option ℝ) (gamma : ℝ) (power : Input N ℝ) (bias : Bias) (o : Wse N)
    (h : setModules lower (Wse.init weights normed violation gamma power bias) m = .ok o)
    (hw : NonnegArg weights) (hp : Nonneg power) {ws : List ℝ}
    (hws : setStateArray lower m.names (weights.getD (defaultWeights m)) = .ok ws) (s r : List ℝ) (hs : s.length = m.names.length)
    (hin : ∀ i < m.names.length, entry ws i ≠ 0 → entry m.low i ≤ entry s i ∧ entry s i ≤ entry m.high i) (hr : InSpace m r)
    (x : ℝ) (hx : reward o s r 0 = .ok (.fin x)) : ∃ lo hi, o.range = some (lo, hi) ∧ lo ≤ x ∧ x ≤ hi := by
  set s' : List ℝ := (List.range m.names.length).map fun i => if entry ws i ≠ 0 then entry s i else entry r i with hs'
  have hl : s'.length = m.names.length := by simp [hs']
  have he : ∀ i < m.names.length, entry s' i = if entry ws i ≠ 0 then entry s i else entry r i := by
    intro i hi
    simp [hs', entry, List.getD_eq_getElem?_getD, List.getElem?_map, List.getElem?_range, hi]
  have hsp : InSpace m s' := by
    refine ⟨hl, fun i hi => ?_⟩
    rw [he i hi]
    split_ifs with h0
    · exact hin i hi h0
    · exact hr.2 i hi
  obtain ⟨n, ws', v, -, hw', -, -, hrew⟩ := reward_spec lower m hm weights normed violation gamma power bias o h
  rw [hws, Except.ok.injEq] at hw'
  subst hw'
  have hsum : errorSum m ws n s r = errorSum m ws n s' r := by
    refine Finset.sum_congr rfl fun i hi => ?_
    have hi := Finset.mem_range.1 hi
    by_cases h0 : entry ws i = 0
    · rw [h0, zero_mul, zero_mul]
    · have : entry s' i = entry s i := by rw [he i hi, if_pos h0]
      simp only [relError, this]
  have hx' : reward o s' r 0 = .ok (.fin x) := by
    rw [← hx, hrew s r hs hr.1, hrew s' r hl hr.1, hsum]
  obtain ⟨lo, hi, h1, h2, h3, -⟩ := c45_range lower m hm weights normed violation gamma power bias o h hw hp s' r hsp hr x hx'
  exact ⟨lo, hi, h1, h2, h3⟩

/-! ## Registered environments -/

section registered

variable {H G τ S C P A : Type}

theorem default_coherent {d : Defaults} (hfit : Fitting d) (hpos : ∀ w ∈ d.weights, 0 < w.2) {D : Drive} (p : Parts ℝ D.Y D.U A S C P) (limits : List ℝ)
    (start : G → G × D.Y) (seedSystem : ℕ → G → G) {gen : RefGen τ ℝ} (href : gen.referenced.length = (stateNames d.motor).length)
    (seedRef : ℕ → τ → τ) (lower : String → String) (hlower : ∀ n ∈ stateNames d.motor, lower n = n) (nCb : ℕ) :
    Coherent (Registry.setup d p (D.frame A) D.rep limits start seedSystem gen seedRef lower nCb) := by
  refine ⟨⟨(low_spec d.motor).1, by simp [Registry.setup, high], href, fun i hi => ?_⟩, stateNames_nodup _, hlower, fun g hg n hn => ?_,
    some (.dict (d.weights.map fun w => (w.1, (w.2 : ℝ)))), false, none, 9 / 10, .scalar 1, .num 0, rfl, ?_, ?_, by norm_num, by simp⟩
  · have hi : i < (stateNames d.motor).length := hi
    show entry (low d.motor) i < entry (high d.motor) i
    rw [entry_high _ hi]
    linarith [((low_spec d.motor).2 i hi).2]
  · refine entry_high _ (List.idxOf_lt_length_of_mem (hfit.known n ?_))
    simp only [List.mem_append]
    exact Or.inr (List.mem_flatten.2 ⟨g, hg, hn⟩)
  · intro a ha
    simp only [Option.mem_def, Option.some.injEq] at ha
    subst ha
    intro q hq
    obtain ⟨w, hw, rfl⟩ := List.mem_map.1 hq
    have := hpos w hw
    show (0 : ℝ) ≤ w.2
    exact_mod_cast this.le
  · simp [Nonneg]

/-- The reward of registered environments, if the controlled states are in the state space. -/
theorem default_reward {d : Defaults} (hfit : Fitting d) (hpos : ∀ w ∈ d.weights, 0 < w.2) (hsum : (d.weights.map Prod.snd).sum = 1)
    {D : Drive} (p : Parts ℝ D.Y D.U A S C P) (limits : List ℝ)
    (start : G → G × D.Y) (seedSystem : ℕ → G → G) {gen : RefGen τ ℝ} (href : gen.referenced.length = (stateNames d.motor).length)
    (seedRef : ℕ → τ → τ) (lower : String → String) (hlower : ∀ n ∈ stateNames d.motor, lower n = n) (nCb : ℕ)
    {w : Wse String} {mo : Monitor (List ℝ) ℝ} {idx : List ℕ}
    (hm : modules (Registry.setup d p (D.frame A) D.rep limits start seedSystem gen seedRef lower nCb) = .ok (w, mo, idx))
    {s ref : List ℝ} (hs : s.length = (stateNames d.motor).length) (hr : Refs.Within (low d.motor) (high d.motor) ref)
    (hin : ∀ n ∈ d.weights.map Prod.fst, entry (low d.motor) ((stateNames d.motor).idxOf n) ≤ entry s ((stateNames d.motor).idxOf n) ∧
      entry s ((stateNames d.motor).idxOf n) ≤ entry (high d.motor) ((stateNames d.motor).idxOf n)) {x : ℝ}
    (hx : number (Reward.reward w s ref 0) = .ok x) : -1 ≤ x ∧ x ≤ 0 := by
  have hcoh := default_coherent (A := A) (S := S) (C := C) (P := P) (D := D) hfit hpos p limits start seedSystem href seedRef lower hlower nCb
  obtain ⟨w', mo', idx', e1, e2, -⟩ := default_modules hfit hsum p limits start seedSystem gen seedRef lower hlower nCb
  rw [hm, Except.ok.injEq, Prod.mk.injEq] at e1
  obtain ⟨rfl, -⟩ := e1
  obtain ⟨-, -, -, hw, -⟩ := modules_ok hm
  have hk : ∀ k ∈ d.weights.map Prod.fst, k ∈ stateNames d.motor := fun k h => hfit.known k (by simp only [List.mem_append]; tauto)
  obtain ⟨n, ws, v, -, q2, -, -, -⟩ := reward_spec lower _ hcoh.sound _ _ _ _ _ _ w hw
  have hx' : Reward.reward w s ref 0 = .ok (.fin x) := by
    cases h : Reward.reward w s ref 0 with
    | error e => simp [h, number] at hx
    | ok y => cases y <;> simp [h, number] at hx ⊢; exact hx
  have hnn : NonnegArg (some (Input.dict (d.weights.map fun w => (w.1, (w.2 : ℝ))))) := by
    intro a ha
    simp only [Option.mem_def, Option.some.injEq] at ha
    subst ha
    intro q hq
    obtain ⟨w, hw, rfl⟩ := List.mem_map.1 hq
    have := hpos w hw
    show (0 : ℝ) ≤ w.2
    exact_mod_cast this.le
  have hz : ∀ i < (stateNames d.motor).length, entry ws i ≠ 0 → entry (low d.motor) i ≤ entry s i ∧ entry s i ≤ entry (high d.motor) i := by
    intro i hi h0
    by_cases hmem : (stateNames d.motor)[i] ∈ d.weights.map Prod.fst
    · have := hin _ hmem
      rwa [(stateNames_nodup d.motor).idxOf_getElem i hi] at this
    · refine absurd ?_ h0
      have hlow : ((d.weights.map fun w => (w.1, (w.2 : ℝ))).map fun q => (lower q.1, q.2)) = d.weights.map fun w => (w.1, (w.2 : ℝ)) := by
        rw [List.map_map]
        refine List.map_congr_left fun w hw => ?_
        simp only [Function.comp]
        rw [hlower w.1 (hk w.1 (List.mem_map_of_mem hw))]
      have q2 : setStateArray lower (stateNames d.motor) (.dict (d.weights.map fun w => (w.1, (w.2 : ℝ)))) = .ok ws := q2
      simp only [setStateArray, stateDictToStateArray] at q2
      split_ifs at q2
      rw [hlow, Except.ok.injEq] at q2
      subst q2
      have hnone : lookup (d.weights.map fun w => (w.1, (w.2 : ℝ))) (stateNames d.motor)[i] = none := by
        unfold lookup
        rw [Option.map_eq_none_iff, List.find?_eq_none]
        intro q hq
        obtain ⟨w', hw', rfl⟩ := List.mem_map.1 (List.mem_reverse.1 hq)
        simp only [decide_eq_true_eq]
        exact fun e => hmem (e ▸ List.mem_map_of_mem hw')
      simp [entry, List.getD_eq_getElem?_getD, hi, hnone]
  obtain ⟨lo, hi, f1, f2, f3⟩ := reward_weighted lower _ hcoh.sound _ _ _ _ _ _ w hw hnn (by simp [Nonneg]) q2 s ref hs
    hz (within_inSpace hcoh hr) x hx'
  rw [e2] at f1
  simp only [Option.some.injEq, Prod.mk.injEq] at f1
  obtain ⟨rfl, rfl⟩ := f1
  exact ⟨f2, f3⟩

theorem map_entry {names : List String} (hn : names.Nodup) {s : List ℝ} (hs : s.length = names.length) :
    names.map (fun n => entry s (names.idxOf n)) = s := by
  refine List.ext_getElem (by simp [hs]) fun i h1 h2 => ?_
  have hi : i < names.length := by simpa using h1
  simp [hn.idxOf_getElem i hi, entry, List.getD_eq_getElem?_getD, h2]

/-- A limited state, alone or in a squared group, is between -1 and 1 unless a constraint is violated. -/
theorem limited_bound {lower : String → String} {all : String} {names limited : List String} {squares : List (List String)} {s : List ℝ}
    (hs : s.length = names.length) (h : ¬ Violates lower all names limited squares s) {n : String} (hn : n ∈ names) (hl : lower n = n)
    (hc : n ∈ limited ∨ ∃ g ∈ squares, n ∈ g) : |entry s (names.idxOf n)| ≤ 1 := by
  have hi := List.idxOf_lt_length_of_mem hn
  by_contra hgt
  push Not at hgt
  apply h
  rcases hc with hc | ⟨g, hg, hng⟩
  · refine Or.inl ⟨names.idxOf n, n, entry s (names.idxOf n), ?_, ?_, hgt, n, hc, Or.inr hl⟩
    · rw [List.getElem?_eq_getElem hi, List.getElem_idxOf]
    · simp [entry, List.getD_eq_getElem?_getD, List.getElem?_eq_getElem (hs ▸ hi)]
  · refine Or.inr ⟨g, hg, ?_⟩
    have h1 : entry s (names.idxOf n) ^ 2 ≤ (g.map fun n => entry s (names.idxOf n) ^ 2).sum :=
      List.single_le_sum (fun x hx => by obtain ⟨_, _, rfl⟩ := List.mem_map.1 hx; positivity) _ (List.mem_map_of_mem hng)
    have h2 : 1 < entry s (names.idxOf n) ^ 2 := by
      rw [← sq_abs]
      nlinarith [abs_nonneg (entry s (names.idxOf n))]
    exact h2.trans_le h1

/-- Running episodes of a registered environment, given an invariant `J` of its physical system. -/
theorem registered_ongoing {R : Rng H} (hR : RngOk R) (m : Registry.Motor) {name : String} {d : Defaults}
    (hd : make m.envId = some (name, d))
    {D : Drive} (hD : Drives d.motor D) {pw : Power A C} {conv : C} {space : A → Prop}
    (hpw : Powered d.tau d.action d.converter A C pw conv space) (p : Parts ℝ D.Y D.U A S C P) (hu : Uses p pw) (hs : Shaped p D.shape)
    (limits nominal : List ℝ) (hl : limits.length = (stateNames d.motor).length)
    (hn : NominalOk d.motor limits nominal (d.references.list.map (·.state)))
    (start : G → G × D.Y) (hstart : ∀ g, D.shape (start g).2) (seedSystem : ℕ → G → G)
    {gen : RefGen τ ℝ} {new : τ → Prop} {reseeded : τ → τ → Prop} (hg : Generates R d.motor limits nominal d.references τ gen new reseeded)
    (seedRef : ℕ → τ → τ) (hseed : ∀ n s, reseeded s (seedRef n s)) (lower : String → String)
    (hlower : ∀ n ∈ stateNames d.motor, lower n = n) (nCb : ℕ) (x : World S C P G τ) (hx : x.sys.conv = conv) (hf : new x.ref)
    (J : St ℝ S C P → Prop) (I : C → Prop) (hI : I conv) (hJ0 : ∀ st g, I st.conv → J (reset p D.rep limits st (start g).2).1)
    (hIJ : ∀ st, J st → I st.conv) (hJ : ∀ st a, J st → J (simulate p (D.frame A) d.tau limits st a).1)
    (good : StepResult (List ℝ) (List ℝ) ℝ → Prop)
    (hgood : ∀ st a s r, J st → (simulate p (D.frame A) d.tau limits st a).2 = .ok s → s.length = (stateNames d.motor).length →
      r.obs.1 = s → ¬ Violates lower "all_states" (stateNames d.motor) d.limited d.squares s →
      ((∀ n ∈ controlled m.type m.control, entry (low d.motor) ((stateNames d.motor).idxOf n) ≤ entry s ((stateNames d.motor).idxOf n) ∧
        entry s ((stateNames d.motor).idxOf n) ≤ entry (high d.motor) ((stateNames d.motor).idxOf n)) → RewardInRange r) → good r) :
    ∃ mods, build (Registry.setup d p (D.frame A) D.rep limits start seedSystem gen seedRef lower nCb) = .ok mods ∧
      ∀ ops : List (Core.Op (World S C P G τ) A), (∀ op ∈ ops, Proper space op) →
        OnGoing good (Core.run mods (Core.Env.init mods x) ops).2 := by
  obtain ⟨name', d', hd', hmatch, hfit⟩ := entry_of m
  rw [hd, Option.some.injEq, Prod.mk.injEq] at hd'
  obtain ⟨rfl, rfl⟩ := hd'
  obtain ⟨href, fresh, ready, g1, g2, g3⟩ := generates_provides hR hg hn hfit.margins
  obtain ⟨w, mo, idx, e1, -, -⟩ := default_modules hfit hmatch.total p limits start seedSystem gen seedRef lower hlower nCb
  rw [hfit.converter] at hpw
  obtain ⟨idle, ha, hi⟩ := drives_accept hD hpw p hu hs d.tau limits hl
  have hcoh := default_coherent (A := A) (S := S) (C := C) (P := P) (D := D) hfit hmatch.positive p limits start seedSystem href seedRef
    lower hlower nCb
  refine ⟨comps (Registry.setup d p (D.frame A) D.rep limits start seedSystem gen seedRef lower nCb) w mo idx,
    by simp only [build, e1, Except.map], fun ops hops => ?_⟩
  refine ongoing_steps hcoh e1 ha (powered_space hpw) hstart g1 (fun n t ht => g3 t _ ht (hseed n t)) J I hJ0 hIJ hJ good ?_ x
    (by rw [hx]; exact hi) (by rw [hx]; exact hI) (g2 _ hf) ops hops
  intro st a s ref r h1 h2 h3 h4 h5 h6
  refine hgood st a s r h1 h2 h3.1 ?_ h5 fun hin => ?_
  · rw [h3.2.1]
    exact map_entry (stateNames_nodup _) h3.1
  · exact default_reward hfit hmatch.positive hmatch.total p limits start seedSystem href seedRef lower hlower nCb e1 h3.1 h4
      (by rw [hmatch.weights]; exact hin) h6

/-- what current control needs from the constraints -/
def currentsOk (m : Registry.Motor) : Bool :=
  match make m.envId with
  | none => false
  | some (_, d) => decide (m.control = .current → ∀ n ∈ controlled m.type m.control, n ∈ d.limited ∨ ∃ g ∈ d.squares, n ∈ g)

theorem currents_ok : ∀ m ∈ motors, currentsOk m = true := by decide +kernel

theorem current_low (t : MotorType) : ∀ n ∈ controlled t .current, n ∈ stateNames t ∧ entry (low t) ((stateNames t).idxOf n) = -1 := by
  cases t <;> simp [controlled, stateNames, dcNames, syncNames, scimNames, dfimNames, eesmNames, low, dcLow, acLow, entry, Space.permEx,
    Space.series, Space.shunt, Space.extEx, Space.signed, fourLow, List.idxOf_cons]

/-- C123 (current control): in every registered environment for current control, the reward of every step after which the episode goes on
lies in `reward_range`: as the controlled currents are limited.

Whatever the solver, the start states, the supply, the torque function of the motor, the random numbers, the actions, and limits that fit to
the nominal values. -/
theorem c123_current {R : Rng H} (hR : RngOk R) (m : Registry.Motor) (hm : m.control = .current) {name : String} {d : Defaults}
    (hd : make m.envId = some (name, d))
    {D : Drive} (hD : Drives d.motor D) {pw : Power A C} {conv : C} {space : A → Prop}
    (hpw : Powered d.tau d.action d.converter A C pw conv space) (p : Parts ℝ D.Y D.U A S C P) (hu : Uses p pw) (hs : Shaped p D.shape)
    (limits nominal : List ℝ) (hl : limits.length = (stateNames d.motor).length)
    (hn : NominalOk d.motor limits nominal (d.references.list.map (·.state)))
    (start : G → G × D.Y) (hstart : ∀ g, D.shape (start g).2) (seedSystem : ℕ → G → G)
    {gen : RefGen τ ℝ} {new : τ → Prop} {reseeded : τ → τ → Prop} (hg : Generates R d.motor limits nominal d.references τ gen new reseeded)
    (seedRef : ℕ → τ → τ) (hseed : ∀ n s, reseeded s (seedRef n s)) (lower : String → String)
    (hlower : ∀ n ∈ stateNames d.motor, lower n = n) (nCb : ℕ) (x : World S C P G τ) (hx : x.sys.conv = conv) (hf : new x.ref) :
    ∃ mods, build (Registry.setup d p (D.frame A) D.rep limits start seedSystem gen seedRef lower nCb) = .ok mods ∧
      ∀ ops : List (Core.Op (World S C P G τ) A), (∀ op ∈ ops, Proper space op) →
        OnGoing RewardInRange (Core.run mods (Core.Env.init mods x) ops).2 := by
  refine registered_ongoing hR m hd hD hpw p hu hs limits nominal hl hn start hstart seedSystem hg seedRef hseed lower hlower nCb x hx hf
    (fun _ => True) (fun _ => True) trivial (fun _ _ _ => trivial) (fun _ _ => trivial) (fun _ _ _ => trivial) RewardInRange ?_
  intro st a s r _ _ hlen _ hv hrew
  obtain ⟨name', d', hd', hmatch, hfit⟩ := entry_of m
  rw [hd, Option.some.injEq, Prod.mk.injEq] at hd'
  obtain ⟨rfl, rfl⟩ := hd'
  have hok := currents_ok m (mem_motors m)
  rw [currentsOk, hd] at hok
  refine hrew fun n hn => ?_
  obtain ⟨k1, k2⟩ := current_low d.motor n (by rw [hmatch.motor, ← hm]; exact hn)
  have hb := abs_le.1 (limited_bound hlen hv k1 (hlower n k1) (of_decide_eq_true hok hm n hn))
  rw [k2, entry_high _ (List.idxOf_lt_length_of_mem k1)]
  exact hb

theorem within_entry {t : MotorType} {s : List ℝ} (h : Refs.Within (low t) (high t) s) {i : ℕ} (hi : i < (stateNames t).length) :
    entry (low t) i ≤ entry s i ∧ entry s i ≤ entry (high t) i := by
  have hh : (high t).length = (stateNames t).length := by simp [high]
  have hl := (low_spec t).1
  have h1 := h.1.get (by omega : i < (low t).length) (by have := h.1.length_eq; omega)
  have h2 := h.2.get (by have := h.1.length_eq; omega : i < s.length) (by omega)
  have hi' : i < s.length := by have := h.1.length_eq; omega
  simp only [entry, List.getD_eq_getElem?_getD, List.getElem?_eq_getElem hi', List.getElem?_eq_getElem (hl ▸ hi),
    List.getElem?_eq_getElem (hh ▸ hi), Option.getD_some]
  exact ⟨h1, h2⟩

/-! ## Permanently excited motors -/

/-- The solver moves along the solutions of the differential equation of the system, with load `mech`, for some time at a constant
input voltage. -/
def FollowsPermEx (p : Parts ℝ (DcY ℝ) (List ℝ) A S C P) (mp : PermExParams ℝ) (mech : ℝ → (Fin 1 → ℝ) → ℝ → Fin 1 → ℝ) : Prop :=
  ∀ s x t w i, p.solverY s = ⟨[w], [i]⟩ → ∃ (h : ℝ) (z : ℝ → Fin 2 → ℝ), 0 ≤ h ∧
    Runs (systemEquation mech (permExTorque mp) (permExOde mp) 0 none) (fun _ => ![x]) z ∧ z 0 = ![w, i] ∧
    p.solverY (p.integrate s [x] t) = ⟨[z h 0], [z h 1]⟩

/-- The parameters of the default motor (dc_permanently_excited_motor.py 48–53), without the inertia. -/
def permExDefault : PermExParams ℝ := ⟨16 / 1000, 19 / 1000000, 165 / 1000⟩

/-- The differential equation of a default load; the total inertia contains that of the rotor (mechanical_load.py 188–193,
polynomial_static_load.py 39, 49, 75–82). -/
def loadMech (jRotor : ℝ) : LoadArg → ℝ → (Fin 1 → ℝ) → ℝ → Fin 1 → ℝ
  | .constantSpeed _ => constMech
  | .polynomial ps =>
    let par := fun n x => (((lookup ps n).getD x : ℚ) : ℝ)
    polyMech (par "a" 0) (par "b" 0) (par "c" 0) (par "j_load" (1 / 100000)) (1 / 1000) [jRotor]

/-- The initial speed of a default load (constant_speed_load.py 36–38, polynomial_static_load.py 40–45). -/
def loadStart : LoadArg → ℝ
  | .constantSpeed w => w
  | .polynomial _ => 0

/-- slow decay rate of an unloaded permanently excited motor -/
def slowRate (mp : PermExParams ℝ) (j : ℝ) : ℝ :=
  (mp.ra / mp.la - Real.sqrt ((mp.ra / mp.la) ^ 2 - 4 * (mp.psiE ^ 2 / (mp.la * j)))) / 2

/-- fast decay rate -/
def fastRate (mp : PermExParams ℝ) (j : ℝ) : ℝ :=
  (mp.ra / mp.la + Real.sqrt ((mp.ra / mp.la) ^ 2 - 4 * (mp.psiE ^ 2 / (mp.la * j)))) / 2

/-- Speeds and currents that an unloaded motor does not leave at voltages up to `U`. -/
def Reachable (mp : PermExParams ℝ) (j U w i : ℝ) : Prop :=
  |w| ≤ U / mp.psiE ∧ |mp.psiE / j * i + slowRate mp j * w| ≤ slowRate mp j * (U / mp.psiE)

theorem rates (mp : PermExParams ℝ) {j : ℝ} (hr : 0 < mp.ra) (hl : 0 < mp.la) (hp : 0 < mp.psiE) (hj : 0 < j)
    (hd : 4 * mp.psiE ^ 2 * mp.la ≤ mp.ra ^ 2 * j) :
    0 < slowRate mp j ∧ 0 < fastRate mp j ∧ slowRate mp j + fastRate mp j = mp.ra / mp.la ∧
      slowRate mp j * fastRate mp j = mp.psiE ^ 2 / (mp.la * j) := by
  set a := mp.ra / mp.la with ha
  set b := mp.psiE ^ 2 / (mp.la * j) with hb
  have a0 : 0 < a := div_pos hr hl
  have b0 : 0 < b := by positivity
  have hD : 0 ≤ a ^ 2 - 4 * b := by
    have : a ^ 2 - 4 * b = (mp.ra ^ 2 * j - 4 * mp.psiE ^ 2 * mp.la) / (mp.la ^ 2 * j) := by
      rw [ha, hb]
      field_simp
    rw [this]
    exact div_nonneg (by linarith) (by positivity)
  have hsq := Real.sq_sqrt hD
  have hlt : Real.sqrt (a ^ 2 - 4 * b) < a := by
    rw [Real.sqrt_lt' a0]
    linarith
  have h0 := Real.sqrt_nonneg (a ^ 2 - 4 * b)
  refine ⟨?_, ?_, ?_, ?_⟩ <;> simp only [slowRate, fastRate, ← ha, ← hb]
  · linarith
  · linarith
  · ring
  · nlinarith

theorem unloaded {j tau : ℝ} {rs : List ℝ} (h : PolyParams 0 0 0 j tau rs) (t w T : ℝ) :
    (polyOf 0 0 0 j tau rs).mechanicalOde t w T = T / (j + rs.sum) := by
  have e := polyOf_fields 0 0 0 tau rs j
  unfold GEM.Load.Poly.mechanicalOde
  rw [c25_friction h, e.2.2.2.2]
  unfold GEM.Spec.friction
  have : max (-(0 : ℝ)) (min 0 ((j + rs.sum) / tau * w)) = 0 := by
    rw [neg_zero]; exact max_eq_left (min_le_left _ _)
  rw [this]
  ring

/-- An unloaded, overdamped permanently excited motor never turns faster than its no-load speed. -/
theorem reachable_kept (mp : PermExParams ℝ) {j tau U : ℝ} {rs : List ℝ} (hr : 0 < mp.ra) (hl : 0 < mp.la) (hp : 0 < mp.psiE)
    (h : PolyParams 0 0 0 j tau rs) (hd : 4 * mp.psiE ^ 2 * mp.la ≤ mp.ra ^ 2 * (j + rs.sum))
    (u : ℝ → Fin 1 → ℝ) (hu : ∀ t, 0 ≤ t → |u t 0| ≤ U) (z : ℝ → Fin 2 → ℝ)
    (hz : Runs (systemEquation (polyMech 0 0 0 j tau rs) (permExTorque mp) (permExOde mp) 0 none) u z)
    (h0 : Reachable mp (j + rs.sum) U (z 0 0) (z 0 1)) (t : ℝ) (ht : 0 ≤ t) : Reachable mp (j + rs.sum) U (z t 0) (z t 1) := by
  have hj : 0 < j + rs.sum := add_pos_of_pos_of_nonneg h.j (List.sum_nonneg h.rotors)
  obtain ⟨r1, r2, r3, r4⟩ := rates mp hr hl hp hj hd
  unfold Reachable at h0 ⊢
  generalize slowRate mp (j + rs.sum) = a at *
  generalize fastRate mp (j + rs.sum) = b at *
  set J := j + rs.sum with hJ
  have d0 : ∀ t, 0 ≤ t → HasDerivWithinAt (fun t => z t 0) (mp.psiE * z t 1 / J) (Set.Ici t) t := by
    intro t ht
    have := (hz 0).2 t ht
    have e : (systemEquation (polyMech 0 0 0 j tau rs) (permExTorque mp) (permExOde mp) 0 none t (z t) (u t) : Fin 2 → ℝ) 0
        = (polyOf 0 0 0 j tau rs).mechanicalOde t (z t 0) (mp.psiE * z t 1) := rfl
    rwa [e, unloaded h] at this
  have d1 : ∀ t, 0 ≤ t → HasDerivWithinAt (fun t => z t 1) ((-mp.psiE * z t 0 - mp.ra * z t 1 + u t 0) / mp.la) (Set.Ici t) t := by
    intro t ht
    have := (hz 1).2 t ht
    have e : (systemEquation (polyMech 0 0 0 j tau rs) (permExTorque mp) (permExOde mp) 0 none t (z t) (u t) : Fin 2 → ℝ) 1
        = permExOde mp ![z t 1] (u t) (z t 0) 0 := rfl
    rw [e, permExOde_eq] at this
    simpa using this
  set W := U / mp.psiE with hW
  have hU : U = mp.psiE * W := by rw [hW]; field_simp
  set v : ℝ → ℝ := fun t => mp.psiE / J * z t 1 + a * z t 0 with hv
  have cv : ContinuousOn v (Set.Ici 0) := (continuousOn_const.mul (hz 1).1).add (continuousOn_const.mul (hz 0).1)
  have hb : b = mp.ra / mp.la - a := by linarith
  have dv : ∀ t, 0 ≤ t → HasDerivWithinAt v (mp.psiE / (J * mp.la) * u t 0 - b * v t) (Set.Ici t) t := by
    intro t ht
    refine (((d1 t ht).const_mul (mp.psiE / J)).add ((d0 t ht).const_mul a)).congr_deriv ?_
    have e1 : b * (a * z t 0) = mp.psiE ^ 2 / (mp.la * J) * z t 0 := by rw [← r4]; ring
    have e2 : b * (mp.psiE / J * z t 1 + a * z t 0) = (mp.ra / mp.la - a) * (mp.psiE / J * z t 1) + mp.psiE ^ 2 / (mp.la * J) * z t 0 := by
      rw [mul_add, e1, hb]
    simp only [hv]
    rw [e2]
    field_simp
    ring
  have hk : mp.psiE / (J * mp.la) * U = b * (a * W) := by
    rw [hU]
    have : mp.psiE / (J * mp.la) * (mp.psiE * W) = mp.psiE ^ 2 / (mp.la * J) * W := by field_simp
    rw [this, ← r4]
    ring
  have hk0 : 0 < mp.psiE / (J * mp.la) := by positivity
  have v1 : ∀ t, 0 ≤ t → 0 ≤ a * W - v t := by
    refine stays_nonneg (f' := fun t => -(mp.psiE / (J * mp.la) * u t 0 - b * v t)) (continuousOn_const.sub cv)
      (fun t ht => ((dv t ht).const_sub _)) (by have := (abs_le.1 h0.2).2; simp only [hv]; linarith) fun t ht hn => ?_
    have h1 := mul_le_mul_of_nonneg_left (abs_le.1 (hu t ht)).2 hk0.le
    have h2 : b * (a * W) ≤ b * v t := mul_le_mul_of_nonneg_left (by linarith) r2.le
    linarith
  have v2 : ∀ t, 0 ≤ t → 0 ≤ a * W + v t := by
    refine stays_nonneg (f' := fun t => (mp.psiE / (J * mp.la) * u t 0 - b * v t)) (continuousOn_const.add cv)
      (fun t ht => ((dv t ht).const_add _)) (by have := (abs_le.1 h0.2).1; simp only [hv]; linarith) fun t ht hn => ?_
    have h1 := mul_le_mul_of_nonneg_left (abs_le.1 (hu t ht)).1 hk0.le
    have h2 : b * v t ≤ b * -(a * W) := mul_le_mul_of_nonneg_left (by linarith) r2.le
    linarith
  have w1 : ∀ t, 0 ≤ t → 0 ≤ W - z t 0 := by
    refine stays_nonneg (f' := fun t => -(mp.psiE * z t 1 / J)) (continuousOn_const.sub (hz 0).1)
      (fun t ht => ((d0 t ht).const_sub _)) (by have := (abs_le.1 h0.1).2; linarith) fun t ht hn => ?_
    have h1 := v1 t ht
    have h2 : a * W ≤ a * z t 0 := mul_le_mul_of_nonneg_left (by linarith) r1.le
    have h3 : mp.psiE * z t 1 / J = mp.psiE / J * z t 1 := by ring
    simp only [hv] at h1
    linarith
  have w2 : ∀ t, 0 ≤ t → 0 ≤ W + z t 0 := by
    refine stays_nonneg (f' := fun t => (mp.psiE * z t 1 / J)) (continuousOn_const.add (hz 0).1)
      (fun t ht => ((d0 t ht).const_add _)) (by have := (abs_le.1 h0.1).1; linarith) fun t ht hn => ?_
    have h1 := v2 t ht
    have h2 : a * z t 0 ≤ a * -W := mul_le_mul_of_nonneg_left (by linarith) r1.le
    have h3 : mp.psiE * z t 1 / J = mp.psiE / J * z t 1 := by ring
    simp only [hv] at h1
    linarith
  exact ⟨abs_le.2 ⟨by linarith [w2 t ht], by linarith [w1 t ht]⟩, abs_le.2 ⟨by have := v2 t ht; simp only [hv] at this; linarith,
    by have := v1 t ht; simp only [hv] at this; linarith⟩⟩

/-- the arguments of the environments with a permanently excited motor -/
def permExOk (m : Registry.Motor) : Bool :=
  match make m.envId with
  | none => false
  | some (_, d) => decide (m.type = .permExDc → d.supply = 60 ∧ "i" ∈ d.limited ∧ (d.load = .constantSpeed 100 ∨
      d.load = .polynomial [("a", 0), ("b", 0), ("c", 0), ("j_load", 1 / 10000)] ∨
      d.load = .polynomial [("a", 0), ("b", 0), ("c", 0), ("j_load", 1 / 1000)]))

theorem permEx_ok : ∀ m ∈ motors, permExOk m = true := by decide +kernel

theorem mech_const (jr : ℝ) (w : ℚ) : loadMech jr (.constantSpeed w) = constMech := rfl

theorem mech_unloaded (jr : ℝ) (j : ℚ) : loadMech jr (.polynomial [("a", 0), ("b", 0), ("c", 0), ("j_load", j)])
    = polyMech 0 0 0 j (1 / 1000) [jr] := by
  simp [loadMech, lookup]

/-- The ODE states of the environments with a permanently excited motor. -/
def permExRegion (load : LoadArg) (y : DcY ℝ) : Prop :=
  ∃ w i, y = ⟨[w], [i]⟩ ∧ match load with
    | .constantSpeed w0 => w = w0
    | .polynomial ps => Reachable permExDefault ((((lookup ps "j_load").getD 0 : ℚ) : ℝ) + 25 / 1000) 60 w i

theorem const_speed {torque : (Fin 1 → ℝ) → ℝ} {el : (Fin 1 → ℝ) → (Fin 1 → ℝ) → ℝ → Fin 1 → ℝ} {u : ℝ → Fin 1 → ℝ} {z : ℝ → Fin 2 → ℝ}
    (hz : Runs (systemEquation constMech torque el 0 none) u z) {t : ℝ} (ht : 0 ≤ t) : z t 0 = z 0 0 := by
  have d0 : ∀ t, 0 ≤ t → HasDerivWithinAt (fun t => z t 0) 0 (Set.Ici t) t := fun t ht => (hz 0).2 t ht
  have h1 := stays_nonneg (f := fun t => z t 0 - z 0 0) (f' := fun _ => 0) ((hz 0).1.sub continuousOn_const)
    (fun t ht => (d0 t ht).sub_const _) (by simp) (fun _ _ _ => le_rfl) t ht
  have h2 := stays_nonneg (f := fun t => z 0 0 - z t 0) (f' := fun _ => -0) (continuousOn_const.sub (hz 0).1)
    (fun t ht => (d0 t ht).const_sub _) (by simp) (fun _ _ _ => by simp) t ht
  linarith

theorem permEx_held {p : Parts ℝ (DcY ℝ) (List ℝ) A S C P} {load : LoadArg} (hload : load = .constantSpeed 100 ∨
      load = .polynomial [("a", 0), ("b", 0), ("c", 0), ("j_load", 1 / 10000)] ∨
      load = .polynomial [("a", 0), ("b", 0), ("c", 0), ("j_load", 1 / 1000)])
    (hf : FollowsPermEx p permExDefault (loadMech (25 / 1000) load)) (hset : ∀ s y t, p.solverY (p.setInitial s y t) = y)
    (tq : List ℝ → ℝ) : Held p (dcFrame id tq [0] 1 1) [.four] 60 (permExRegion load) := by
  have key : ∀ s u v t, permExRegion load (p.solverY s) → Outs [.four] u → (.ok (products u [60]) : Except Err (List ℝ)) = .ok v →
      permExRegion load (p.solverY (p.integrate s v t)) := by
    rintro s u v t ⟨w, i, hy, hreg⟩ ⟨a, b, rfl, ⟨x, rfl, hx⟩, rfl⟩ hv
    rw [Except.ok.injEq] at hv
    subst hv
    obtain ⟨h, z, h0, hz, hz0, he⟩ := hf s (x * 60) t w i hy
    have e : products ([x] ++ []) [(60 : ℝ)] = [x * 60] := by simp [products]
    rw [e]
    refine ⟨_, _, he, ?_⟩
    have hx' : |x * 60| ≤ 60 := by
      rw [abs_mul, abs_of_pos (by norm_num : (0 : ℝ) < 60)]
      linarith
    rcases hload with rfl | rfl | rfl
    · dsimp only at hreg ⊢
      rw [mech_const] at hz
      rw [const_speed hz h0, hz0]
      exact hreg
    all_goals
      rw [mech_unloaded] at hz
      refine cast ?_ (reachable_kept permExDefault (U := 60) (rs := [25 / 1000]) (by norm_num [permExDefault]) (by norm_num [permExDefault])
        (by norm_num [permExDefault]) ⟨le_rfl, le_rfl, le_rfl, by norm_num, by norm_num, by simp; norm_num⟩
        (by norm_num [permExDefault]) _ (fun _ _ => by simpa using hx') z hz ?_ h h0)
      · simp [lookup]
      · rw [hz0]
        simpa [lookup] using hreg
  exact ⟨key, key, fun s y t h => by rw [hset]; exact h⟩

theorem permEx_speed {load : LoadArg} (hload : load = .constantSpeed 100 ∨
      load = .polynomial [("a", 0), ("b", 0), ("c", 0), ("j_load", 1 / 10000)] ∨
      load = .polynomial [("a", 0), ("b", 0), ("c", 0), ("j_load", 1 / 1000)]) {w i : ℝ} (h : permExRegion load ⟨[w], [i]⟩) : |w| ≤ 400 := by
  obtain ⟨w', i', e, hreg⟩ := h
  simp only [DcY.mk.injEq, List.cons.injEq, and_true] at e
  obtain ⟨rfl, rfl⟩ := e
  rcases hload with rfl | rfl | rfl
  · dsimp only at hreg
    rw [hreg]
    norm_num
  all_goals
    refine hreg.1.trans ?_
    norm_num [permExDefault]

theorem permEx_rest {load : LoadArg} (hload : load = .constantSpeed 100 ∨
      load = .polynomial [("a", 0), ("b", 0), ("c", 0), ("j_load", 1 / 10000)] ∨
      load = .polynomial [("a", 0), ("b", 0), ("c", 0), ("j_load", 1 / 1000)]) : permExRegion load ⟨[loadStart load], [0]⟩ := by
  refine ⟨_, _, rfl, ?_⟩
  have key : ∀ j : ℝ, 0 < j → 4 * permExDefault.psiE ^ 2 * permExDefault.la ≤ permExDefault.ra ^ 2 * j →
      Reachable permExDefault j 60 0 0 := by
    intro j hj hd
    have := (rates permExDefault (by norm_num [permExDefault]) (by norm_num [permExDefault]) (by norm_num [permExDefault]) hj hd).1
    have hp : 0 < permExDefault.psiE := by norm_num [permExDefault]
    refine ⟨by simpa using (div_pos (by norm_num) hp).le, ?_⟩
    simp only [mul_zero, add_zero, abs_zero]
    positivity
  rcases hload with rfl | rfl | rfl
  · rfl
  all_goals
    simp only [loadStart]
    exact key _ (by simp [lookup]; norm_num) (by simp [lookup, permExDefault]; norm_num)

theorem default_limit {t : MotorType} {ra re : ℝ} {torque : List ℝ → ℝ} {tl : Dict ℝ → Dict ℝ → Except Err ℝ}
    {motor : Dict ℝ × Dict ℝ} (h : motorValues t ra re torque tl [] [] = .ok motor) {supply : ℝ} {limits nominal : List ℝ}
    (hv : SystemValues t motor ([], []) supply limits nominal) {n : String} (hn : n ∈ stateNames t) (hs : n ≠ "u_sup") {x : ℝ} (hx : x ≠ 0)
    (hd : lookup (defLimits t) n = some x) : limitOf t limits n = x := by
  have e := entry_of_map hv.limits hn
  have := (motor_keeps h (by simp) (k := n) hx).1 (by simpa [lookup_nil] using hd)
  unfold limitOf
  simpa [systemValue, hs, this, lookup_nil, smaller] using e.symm

theorem permEx_names : stateNames .permExDc = ["omega", "torque", "i", "u", "u_sup"] := rfl

theorem permEx_low : low .permExDc = [-1, -1, -1, -1, 0] := by
  simp [low, dcLow, Space.permEx, Space.signed, fourLow]

/-- The states a permanently excited motor reports. -/
theorem permEx_state {tq : List ℝ → ℝ} (htq : ∀ i, tq [i] = permExTorque permExDefault ![i]) {load : LoadArg} (hload : load = .constantSpeed 100 ∨
      load = .polynomial [("a", 0), ("b", 0), ("c", 0), ("j_load", 1 / 10000)] ∨
      load = .polynomial [("a", 0), ("b", 0), ("c", 0), ("j_load", 1 / 1000)])
    {ra re : ℝ} {torque : List ℝ → ℝ} {tl : Dict ℝ → Dict ℝ → Except Err ℝ}
    {motor : Dict ℝ × Dict ℝ} (h : motorValues .permExDc ra re torque tl [] [] = .ok motor) {limits nominal : List ℝ}
    (hv : SystemValues .permExDc motor ([], []) 60 limits nominal) {y y' : DcY ℝ} {u s s' : List ℝ} (hy : permExRegion load y')
    (hu : Outs [.four] u) (hs : dcReport tq [0] 1 1 y y' (products u [60]) [60] = .ok s) (hs' : divLimits s limits = .ok s') :
    ∃ w i x, s' = [w / 400, 165 / 1000 * i / 38, i / 210, x * 60 / 60, 60 / 60] ∧ |w| ≤ 400 ∧ |x| ≤ 1 := by
  obtain ⟨a, b, rfl, ⟨x, rfl, hx⟩, rfl⟩ := hu
  have hy0 := hy
  obtain ⟨w, i, rfl, -⟩ := hy
  have hw := permEx_speed hload hy0
  cases hs
  have hl : limits.length = 5 := by simpa [permEx_names] using congrArg List.length hv.limits
  have l0 : limitOf .permExDc limits "omega" = 400 :=
    default_limit h hv (by simp [permEx_names]) (by simp) (by norm_num) (by simp [defLimits, Limits.lookup_cons, lookup_nil])
  have l1 : limitOf .permExDc limits "torque" = 38 :=
    default_limit h hv (by simp [permEx_names]) (by simp) (by norm_num) (by simp [defLimits, Limits.lookup_cons, lookup_nil])
  have l2 : limitOf .permExDc limits "i" = 210 :=
    default_limit h hv (by simp [permEx_names]) (by simp) (by norm_num) (by simp [defLimits, Limits.lookup_cons, lookup_nil])
  have l3 : limitOf .permExDc limits "u" = 60 :=
    default_limit h hv (by simp [permEx_names]) (by simp) (by norm_num) (by simp [defLimits, Limits.lookup_cons, lookup_nil])
  have l4 : limitOf .permExDc limits "u_sup" = 60 := by
    have e := entry_of_map hv.limits (k := "u_sup") (by simp [permEx_names])
    simpa [systemValue, limitOf] using e.symm
  match limits, hl with
  | [a, b, c, d, e], _ =>
    simp [limitOf, permEx_names, entry, List.idxOf_cons] at l0 l1 l2 l3 l4
    subst l0 l1 l2 l3 l4
    refine ⟨w, i, x, ?_, hw, hx⟩
    simp [divLimits, products, htq, permExTorque, permExDefault] at hs'
    simpa using hs'.symm

/-- C123 (permanently excited motors): in the six registered environments with a permanently excited motor and default arguments, the state
and the reward of every step after which the episode goes on lie in the state space and in `reward_range`: the torque stays in its limits
as the current does, and the speed never exceeds the no-load speed of 364 rad/s.

For a solver that solves the differential equation exactly; whatever the random numbers and the actions. -/
theorem c123_permEx {R : Rng H} (hR : RngOk R) (m : Registry.Motor) (hm : m.type = .permExDc) {name : String} {d : Defaults}
    (hd : make m.envId = some (name, d)) {tq : List ℝ → ℝ} (htq : ∀ i, tq [i] = permExTorque permExDefault ![i])
    {pw : Power A C} {conv : C} {space : A → Prop}
    (hpw : Powered d.tau d.action d.converter A C pw conv space) (p : Parts ℝ (DcY ℝ) (List ℝ) A S C P) (hu : Uses p pw)
    (hs : Shaped p (DcShape 1 1)) (hi : Ideal p (d.supply : ℝ)) (hfol : FollowsPermEx p permExDefault (loadMech (25 / 1000) d.load))
    (hset : ∀ s y t, p.solverY (p.setInitial s y t) = y) {ra re : ℝ}
    {torque : List ℝ → ℝ} {tl : Dict ℝ → Dict ℝ → Except Err ℝ} {motor : Dict ℝ × Dict ℝ}
    (h : motorValues d.motor ra re torque tl [] [] = .ok motor)
    {limits nominal : List ℝ} (hv : SystemValues d.motor motor ([], []) d.supply limits nominal)
    (start : G → G × DcY ℝ) (hstart : ∀ g, (start g).2 = ⟨[loadStart d.load], [0]⟩) (seedSystem : ℕ → G → G)
    {gen : RefGen τ ℝ} {new : τ → Prop} {reseeded : τ → τ → Prop} (hg : Generates R d.motor limits nominal d.references τ gen new reseeded)
    (seedRef : ℕ → τ → τ) (hseed : ∀ n s, reseeded s (seedRef n s)) (lower : String → String)
    (hlower : ∀ n ∈ stateNames d.motor, lower n = n) (nCb : ℕ) (x : World S C P G τ) (hx : x.sys.conv = conv) (hf : new x.ref) :
    ∃ mods, build (Registry.setup d p (dcFrame id tq [0] 1 1) (dcResetReport tq [0]) limits start seedSystem gen seedRef lower nCb) = .ok mods ∧
      ∀ ops : List (Core.Op (World S C P G τ) A), (∀ op ∈ ops, Proper space op) →
        OnGoing (fun r => StateInSpace d.motor r ∧ RewardInRange r) (Core.run mods (Core.Env.init mods x) ops).2 := by
  obtain ⟨name', d', hd', hmatch, hfit⟩ := entry_of m
  rw [hd, Option.some.injEq, Prod.mk.injEq] at hd'
  obtain ⟨rfl, rfl⟩ := hd'
  have hok := permEx_ok m (mem_motors m)
  rw [permExOk, hd] at hok
  obtain ⟨k1, k2, hload⟩ := of_decide_eq_true hok hm
  have hmot : d.motor = .permExDc := hmatch.motor.trans hm
  have hD : Drives d.motor ⟨DcY ℝ, List ℝ, DcShape 1 1, fun _ => dcFrame id tq [0] 1 1, dcResetReport tq [0]⟩ := by
    rw [hmot]; exact .permExDc tq
  obtain ⟨inv, hran, hc⟩ := powered_ranged hpw
  rw [hfit.converter, hmot] at hran
  rw [k1] at hi hv
  have hN := (c117_default h _).2 _ _ hv
  have hl : limits.length = (stateNames d.motor).length := by simpa using congrArg List.length hv.limits
  have hheld := permEx_held hload hfol hset tq
  have h60 : (((60 : ℚ) : ℝ)) = 60 := by norm_num
  rw [h60] at hi hv
  have hsim : ∀ (st : St ℝ S C P) (a : A), inv st.conv ∧ permExRegion d.load (p.solverY st.solver) → _ := fun st a hst =>
    simulate_range (tau := (d.tau : ℝ)) (limits := limits)
      (good := fun s' => ∃ w i x, s' = [w / 400, 165 / 1000 * i / 38, i / 210, x * 60 / 60, 60 / 60] ∧ |w| ≤ 400 ∧ |x| ≤ 1)
      hheld hi hu hran (fun y y' u s s' _ hy' ho e e' => permEx_state (y := y) htq hload (hmot ▸ h) (hmot ▸ hv) hy' ho e e') st a hst.1 hst.2
  refine registered_ongoing hR m hd hD hpw p hu hs limits nominal hl (fun n hn => hN n (hfit.known n ?_)) start
    (fun g => by rw [hstart]; exact ⟨rfl, rfl⟩) seedSystem hg seedRef hseed lower hlower nCb x hx hf
    (fun st => inv st.conv ∧ permExRegion d.load (p.solverY st.solver)) inv hc (fun st g hst => ⟨?_, ?_⟩) (fun st hst => hst.1)
    (fun st a hst => ⟨(hsim st a hst).1, (hsim st a hst).2.1⟩) _ ?_
  · simp only [List.mem_append]
    exact Or.inl (Or.inl (Or.inr hn))
  · show inv (p.convReset st.conv).1
    rw [hu.2.2.2]
    exact (hran.reset _ hst).1
  · show permExRegion d.load (p.solverY (p.setInitial st.solver (start g).2 0))
    rw [hset, hstart]
    exact permEx_rest hload
  intro st a s r hst he hlen hobs hviol hrew
  obtain ⟨w, i, x, rfl, hw, hx1⟩ := (hsim st a hst).2.2 s he
  have hcur := limited_bound hlen hviol (n := "i") (by rw [hmot]; simp [permEx_names]) (hlower _ (by rw [hmot]; simp [permEx_names]))
    (Or.inl k2)
  rw [hmot] at hcur
  have hcur : |i / 210| ≤ 1 := by simpa [permEx_names, entry, List.idxOf_cons] using hcur
  have hin : Refs.Within (low d.motor) (high d.motor) [w / 400, 165 / 1000 * i / 38, i / 210, x * 60 / 60, 60 / 60] := by
    have a1 : |w / 400| ≤ 1 := by
      rw [abs_div, abs_of_pos (by norm_num : (0 : ℝ) < 400)]
      linarith
    have a1 := abs_le.1 a1
    have a2 := abs_le.1 hcur
    have a3 := abs_le.1 hx1
    rw [hmot, permEx_low]
    have hhigh : high .permExDc = [1, 1, 1, 1, 1] := rfl
    rw [hhigh]
    refine ⟨?_, ?_⟩ <;> simp only [List.forall₂_cons, List.Forall₂.nil, and_true]
    · exact ⟨a1.1, by linarith, a2.1, by linarith, by norm_num⟩
    · exact ⟨a1.2, by linarith, a2.2, by linarith, by norm_num⟩
  refine ⟨by unfold StateInSpace; rw [hobs]; exact hin, hrew fun n hn => ?_⟩
  have hidx := List.idxOf_lt_length_of_mem (hfit.known n (by
    simp only [List.mem_append]
    rw [hmatch.weights]
    tauto))
  exact within_entry hin hidx

/-! ## Series motors -/

/-- The solver moves along the solutions of the differential equation of the system, up to the requested time. -/
structure TracksSeries (p : Parts ℝ (DcY ℝ) (List ℝ) A S C P) (mp : DcParams ℝ) (mech : ℝ → (Fin 1 → ℝ) → ℝ → Fin 1 → ℝ) : Prop where
  initial : ∀ s y t, p.solverY (p.setInitial s y t) = y ∧ p.solverT (p.setInitial s y t) = t
  time : ∀ s u t, p.solverT (p.integrate s u t) = t
  state : ∀ s x t w i, p.solverY s = ⟨[w], [i]⟩ → p.solverT s ≤ t → ∃ z : ℝ → Fin 2 → ℝ,
    Runs (systemEquation mech (seriesTorque mp) (seriesOde mp) 0 none) (fun _ => ![x]) z ∧ z 0 = ![w, i] ∧
    p.solverY (p.integrate s [x] t) = ⟨[z (t - p.solverT s) 0], [z (t - p.solverT s) 1]⟩

/-- The parameters of the default motor (dc_series_motor.py 51–58), without the inertia. -/
def seriesDefault : DcParams ℝ := ⟨16 / 1000, 48 / 1000, 19 / 1000000, 17 / 10000, 54 / 10000⟩

theorem stays_const {f : ℝ → ℝ} (hc : ContinuousOn f (Set.Ici 0)) (hd : ∀ t, 0 ≤ t → HasDerivWithinAt f 0 (Set.Ici t) t) {t : ℝ}
    (ht : 0 ≤ t) : f t = f 0 := by
  have h1 := stays_nonneg (f := fun t => f t - f 0) (f' := fun _ => 0) (hc.sub continuousOn_const)
    (fun t ht => (hd t ht).sub_const _) (by simp) (fun _ _ _ => le_rfl) t ht
  have h2 := stays_nonneg (f := fun t => f 0 - f t) (f' := fun _ => -0) (continuousOn_const.sub hc)
    (fun t ht => (hd t ht).const_sub _) (by simp) (fun _ _ _ => by simp) t ht
  linarith

/-- At a constant speed, the current of a series motor approaches its end value exponentially. -/
theorem series_current {mp : DcParams ℝ} (hl : 0 < mp.la + mp.le) {x w i : ℝ} (hr : 0 < mp.ra + mp.re + mp.lePrime * w)
    {z : ℝ → Fin 2 → ℝ} (hz : Runs (systemEquation constMech (seriesTorque mp) (seriesOde mp) 0 none) (fun _ => ![x]) z)
    (h0 : z 0 = ![w, i]) {t : ℝ} (ht : 0 ≤ t) :
    z t 0 = w ∧ z t 1 = x / (mp.ra + mp.re + mp.lePrime * w) + (i - x / (mp.ra + mp.re + mp.lePrime * w))
      * Real.exp (-((mp.ra + mp.re + mp.lePrime * w) / (mp.la + mp.le)) * t) := by
  have hw : ∀ t, 0 ≤ t → z t 0 = w := fun t ht => by rw [const_speed hz ht, h0]; rfl
  refine ⟨hw t ht, ?_⟩
  set R := mp.ra + mp.re + mp.lePrime * w with hR
  set L := mp.la + mp.le with hL
  have d1 : ∀ t, 0 ≤ t → HasDerivWithinAt (fun t => z t 1) ((x - R * z t 1) / L) (Set.Ici t) t := by
    intro t ht
    have := (hz 1).2 t ht
    have e : (systemEquation constMech (seriesTorque mp) (seriesOde mp) 0 none t (z t) ![x] : Fin 2 → ℝ) 1
        = seriesOde mp ![z t 1] ![x] (z t 0) 0 := rfl
    rw [e, seriesOde_eq, hw t ht] at this
    refine this.congr_deriv ?_
    simp only [Matrix.cons_val_zero, hR, hL]
    ring
  have key := stays_const (f := fun t => (z t 1 - x / R) * Real.exp (R / L * t))
    (((hz 1).1.sub continuousOn_const).mul (by fun_prop)) (fun t ht => by
      have e1 : HasDerivWithinAt (fun t : ℝ => Real.exp (R / L * t)) (Real.exp (R / L * t) * (R / L)) (Set.Ici t) t := by
        have := ((hasDerivAt_id t).const_mul (R / L)).exp
        simpa using this.hasDerivWithinAt
      refine (((d1 t ht).sub_const _).mul e1).congr_deriv ?_
      field_simp
      ring) ht
  simp only [mul_zero, Real.exp_zero, mul_one, h0] at key
  have hk : (Real.exp (R / L * t))⁻¹ = Real.exp (-(R / L) * t) := by rw [← Real.exp_neg]; congr 1; ring
  have hi : z t 1 - x / R = (i - x / R) * Real.exp (-(R / L) * t) := by
    rw [← hk, ← div_eq_mul_inv, eq_div_iff (Real.exp_ne_zero _), key]
    rfl
  linarith

/-- a continuous four-quadrant converter without dead time -/
def FourFed (c : CConv ℝ) : Prop := ∃ f : CFour ℝ, c = .four f ∧ f.sub0.il = 0 ∧ f.sub1.il = 0 ∧ f.sub0.tau = f.sub1.tau

theorem four_push {c : CConv ℝ} (h : FourFed c) (t : ℝ) : ∃ c1 T, c.setAction [1] t = (c1, .ok [T]) ∧ FourFed c1 ∧
    ∀ i, (∃ w, c1.iSup [i] = .ok w) ∧ ∀ t', c1.convert [i] t' = .ok [1] := by
  obtain ⟨⟨tau, ⟨tau0, il0, a0⟩, ⟨tau1, il1, a1⟩⟩, rfl, h0, h1, h2⟩ := h
  simp only at h0 h1 h2
  subst h0 h1 h2
  refine ⟨((CConv.four ⟨tau, ⟨tau0, 0, a0⟩, ⟨tau0, 0, a1⟩⟩).setAction [1] t).1, t + tau0, ?_, ⟨_, rfl, rfl, rfl, rfl⟩,
    fun i => ⟨⟨_, rfl⟩, fun t' => ?_⟩⟩
  · simp [CConv.setAction, CFour.setAction, sortedSet]
  · simp [CConv.setAction, CFour.setAction, CConv.convert, CFour.convert, CTwo.convert, CTwo.setAction, CTwo.interlock, clip]
    norm_num

/-- the factor by which the distance of the current to its end value shrinks in a step -/
def seriesDecay : ℝ := Real.exp (-((16 / 1000 + 48 / 1000 + 17 / 10000 * 100) / (19 / 1000000 + 54 / 10000)) * (1 / 10000))

/-- the end value of the current: 60 V at 100 rad/s -/
def seriesEnd : ℝ := 60 / (16 / 1000 + 48 / 1000 + 17 / 10000 * 100)

/-- A step with full voltage at 100 rad/s. -/
theorem series_full {p : Parts ℝ (DcY ℝ) (List ℝ) (List ℝ) S (CConv ℝ) P} (hu : Uses p contPower) (hi : Ideal p 60)
    (ht : TracksSeries p seriesDefault constMech) (tq : List ℝ → ℝ) (limits : List ℝ) {st : St ℝ S (CConv ℝ) P} (hc : FourFed st.conv)
    {i : ℝ} (hy : p.solverY st.solver = ⟨[100], [i]⟩) (hT : p.solverT st.solver = st.t) :
    ∃ st', simulate p (dcFrame id tq [0] 1 1) (1 / 10000) limits st [1]
        = (st', divLimits [100, tq [seriesEnd + (i - seriesEnd) * seriesDecay], seriesEnd + (i - seriesEnd) * seriesDecay, 60, 60] limits) ∧
      FourFed st'.conv ∧ p.solverY st'.solver = ⟨[100], [seriesEnd + (i - seriesEnd) * seriesDecay]⟩ ∧ p.solverT st'.solver = st'.t := by
  obtain ⟨c1, T, e1, e2, e3⟩ := four_push hc st.t
  obtain ⟨⟨w, e4⟩, e5⟩ := e3 i
  obtain ⟨u1, u2, u3, u4⟩ := hu
  obtain ⟨z, z1, z2, z3⟩ := ht.state st.solver 60 (st.t + 1 / 10000) 100 i hy (by rw [hT]; norm_num)
  obtain ⟨z4, z5⟩ := series_current (by norm_num [seriesDefault]) (by norm_num [seriesDefault]) z1 z2 (t := 1 / 10000) (by norm_num)
  have e6 : st.t + 1 / 10000 - p.solverT st.solver = 1 / 10000 := by rw [hT]; ring
  have z5 : z (1 / 10000) 1 = seriesEnd + (i - seriesEnd) * seriesDecay := z5
  rw [e6, z4, z5] at z3
  have hset : p.setAction st.conv [1] st.t = (c1, .ok [T]) := by rw [u1]; exact e1
  have hact : ∀ y : DcY ℝ, (dcFrame id tq [0] 1 1 : Frame ℝ (DcY ℝ) (List ℝ) (List ℝ)).action y [1] = [1] := fun _ => rfl
  have hpiece : piece p (dcFrame id tq [0] 1 1) (dcFrame id tq [0] 1 1 : Frame ℝ (DcY ℝ) (List ℝ) (List ℝ)).lastU { st with conv := c1 }
      (st.t + 1 / 10000)
      = ({ st with conv := c1, supply := (p.getVoltage st.supply st.t w).1, solver := p.integrate st.solver [60] (st.t + 1 / 10000) },
        .ok ([60], [60])) := by
    unfold piece
    have hin : (dcFrame id tq [0] 1 1 : Frame ℝ (DcY ℝ) (List ℝ) (List ℝ)).iIn (p.solverY st.solver) = [i] := by rw [hy]; rfl
    have hsup : p.iSup c1 [i] = .ok w := by rw [u3]; exact e4
    have hconv : p.convert c1 [i] (p.solverT st.solver) = (c1, .ok [1]) := by rw [u2]; exact Prod.ext rfl (e5 _)
    have hvol := hi.voltage st.supply st.t w
    have hprod : products [(1 : ℝ)] [60] = [60] := by simp [products]
    simp only [hin, hsup, hconv, hvol, hprod]
    rfl
  refine ⟨⟨st.t + 1 / 10000, st.k + 1, p.integrate st.solver [60] (st.t + 1 / 10000), c1, (p.getVoltage st.supply st.t w).1⟩, ?_, e2, z3,
    ht.time _ _ _⟩
  unfold simulate
  simp only [hact, hset, List.dropLast_singleton, pieces, Call.bind, hpiece, ht.time]
  rw [z3]
  rfl

/-- The arguments of the environments with a series motor and continuous actions for the control of the state `n` (current, torque). -/
def seriesCont (n : String) : Defaults where
  motor := .seriesDc
  action := .continuous
  converter := .single .four
  load := .constantSpeed 100
  supply := 60
  tau := 1 / 10000
  limited := ["i"]
  squares := []
  references := .one ⟨n, (1 / 1000, 1 / 10), none⟩
  weights := [(n, 1)]

theorem c123_series : make (Registry.Motor.envId ⟨.seriesDc, .torque, .continuous⟩)
      = some ("ContTorqueControlDcSeriesMotorEnv", seriesCont "torque") ∧
    make (Registry.Motor.envId ⟨.seriesDc, .current, .continuous⟩) = some ("ContCurrentControlDcSeriesMotorEnv", seriesCont "i") := by
  decide +kernel

theorem series_names : stateNames .seriesDc = ["omega", "torque", "i", "u", "u_sup"] := rfl

theorem series_low : low .seriesDc = [0, 0, -1, -1, 0] := by
  simp [low, dcLow, Space.series, Space.signed, fourLow]

theorem decay_pos : 0 < seriesDecay := Real.exp_pos _

theorem decay_le : seriesDecay ≤ 1 := by
  unfold seriesDecay
  rw [Real.exp_le_one_iff]
  norm_num

/-- The state after the last of some steps with full voltage. -/
theorem series_run {n : String} {p : Parts ℝ (DcY ℝ) (List ℝ) (List ℝ) S (CConv ℝ) P} (hu : Uses p contPower) (hi : Ideal p 60)
    (ht : TracksSeries p seriesDefault constMech) (tq : List ℝ → ℝ) (start : G → G × DcY ℝ) (seedSystem : ℕ → G → G) {gen : RefGen τ ℝ}
    (seedRef : ℕ → τ → τ) (lower : String → String) (hlower : ∀ n ∈ stateNames .seriesDc, lower n = n) (nCb : ℕ)
    {c : Setup (DcY ℝ) (List ℝ) (List ℝ) S (CConv ℝ) P G τ}
    (hcdef : c = Registry.setup (seriesCont n) p (dcFrame id tq [0] 1 1) (dcResetReport tq [0]) [400, 38, 210, 60, 60] start seedSystem gen
      seedRef lower nCb)
    {w : Wse String} {m : Monitor (List ℝ) ℝ} {idx : List ℕ} (hc : Coherent c) (hm : modules c = .ok (w, m, idx))
    {conv : CConv ℝ → Prop} {shape : DcY ℝ → Prop} {fresh ready : τ → Prop} {refLow refHigh : List ℝ}
    (ha : AcceptsAll c.p c.f c.rep c.tau c.limits c.names.length conv shape (fun a => a.length = 1))
    (hr : Provides c.gen refLow refHigh fresh ready)
    (hw : ∀ s r : List ℝ, s.length = c.names.length → Refs.Within refLow refHigh r →
        ∀ d, d = 0 ∨ d = 1 → ∃ x, number (Reward.reward w s r d) = .ok x) :
    ∀ (k : ℕ) (env : Env (World S (CConv ℝ) P G τ) (List ℝ) (List ℝ) (List ℝ) (List ℝ) ℝ) (i : ℝ),
      Idle c conv shape (fun a => a.length = 1) fresh ready false env → FourFed env.comp.sys.conv →
      p.solverY env.comp.sys.solver = ⟨[100], [i]⟩ → p.solverT env.comp.sys.solver = env.comp.sys.t → 0 ≤ i → i ≤ seriesEnd →
      seriesEnd + (i - seriesEnd) * seriesDecay ^ (k + 1) ≤ 210 →
      ∃ r ref, ((.step [1] : Core.Op (World S (CConv ℝ) P G τ) (List ℝ)), Core.Out.step (.done r))
          ∈ (Core.run (comps c w m idx) env (List.replicate (k + 1) (.step [1]))).2 ∧ r.terminated = false ∧
        r.obs.1 = [100 / 400, tq [seriesEnd + (i - seriesEnd) * seriesDecay ^ (k + 1)] / 38,
          (seriesEnd + (i - seriesEnd) * seriesDecay ^ (k + 1)) / 210, 60 / 60, 60 / 60] ∧
        Refs.Within refLow refHigh ref ∧ number (Reward.reward w r.obs.1 ref 0) = .ok r.reward := by
  have htau : c.tau = 1 / 10000 := by rw [hcdef]; norm_num [Registry.setup, seriesCont]
  have h1 : c.p = p := by rw [hcdef]; rfl
  have h2 : c.f = dcFrame id tq [0] 1 1 := by rw [hcdef]; rfl
  have h3 : c.limits = [400, 38, 210, 60, 60] := by rw [hcdef]; rfl
  have h4 : c.names = stateNames .seriesDc := by rw [hcdef]; rfl
  have h5 : c.limited = ["i"] := by rw [hcdef]; rfl
  have h6 : c.squares = [] := by rw [hcdef]; rfl
  have h7 : c.lower = lower := by rw [hcdef]; rfl
  have h8 : c.allStates = "all_states" := by rw [hcdef]; rfl
  have hq0 := decay_pos
  have hq1 := decay_le
  -- one step
  have one : ∀ (env : Env (World S (CConv ℝ) P G τ) (List ℝ) (List ℝ) (List ℝ) (List ℝ) ℝ) (i : ℝ),
      Idle c conv shape (fun a => a.length = 1) fresh ready false env → FourFed env.comp.sys.conv →
      p.solverY env.comp.sys.solver = ⟨[100], [i]⟩ → p.solverT env.comp.sys.solver = env.comp.sys.t → 0 ≤ i → i ≤ seriesEnd →
      seriesEnd + (i - seriesEnd) * seriesDecay ≤ 210 →
      ∃ env' r ref, env.step (comps c w m idx) [1] = (env', .done r) ∧ r.terminated = false ∧
        r.obs.1 = [100 / 400, tq [seriesEnd + (i - seriesEnd) * seriesDecay] / 38, (seriesEnd + (i - seriesEnd) * seriesDecay) / 210,
          60 / 60, 60 / 60] ∧ Refs.Within refLow refHigh ref ∧ number (Reward.reward w r.obs.1 ref 0) = .ok r.reward ∧
        Idle c conv shape (fun a => a.length = 1) fresh ready false env' ∧ FourFed env'.comp.sys.conv ∧
        p.solverY env'.comp.sys.solver = ⟨[100], [seriesEnd + (i - seriesEnd) * seriesDecay]⟩ ∧
        p.solverT env'.comp.sys.solver = env'.comp.sys.t := by
    intro env i g1 g2 g3 g4 g5 g6 g7
    obtain ⟨env', r, s, ref, d, e1, e2, e3, e4, e5, e6, e7, e8, e9, e10, e11⟩ := step_detail hc hm ha hr hw g1 [1] rfl
    obtain ⟨st', f1, f2, f3, f4⟩ := series_full hu hi ht tq c.limits g2 g3 g4
    rw [h1, h2, htau, f1, Prod.mk.injEq, h3] at e2
    obtain ⟨rfl, e2⟩ := e2
    set j := seriesEnd + (i - seriesEnd) * seriesDecay with hj
    have hs : s = [100 / 400, tq [j] / 38, j / 210, 60 / 60, 60 / 60] := by
      simp only [divLimits] at e2
      rw [if_pos (by rfl), Except.ok.injEq] at e2
      exact e2.symm
    have hobs : r.obs.1 = s := by
      rw [e3.2.1]
      have : shown c = stateNames .seriesDc := by rw [hcdef]; rfl
      rw [this, h4]
      refine map_entry (stateNames_nodup _) ?_
      rw [hs]
      rfl
    have hj0 : 0 ≤ j := by
      have : j = i * seriesDecay + seriesEnd * (1 - seriesDecay) := by rw [hj]; ring
      rw [this]
      have h1 := mul_nonneg g5 hq0.le
      have h2 := mul_nonneg (g5.trans g6) (sub_nonneg.2 hq1)
      linarith
    have hnv : ¬ Violates c.lower c.allStates c.names c.limited c.squares s := by
      rw [h4, h5, h6, h7, h8]
      rintro (⟨a, nm, x, q1, q2, q3, q, q4, q5⟩ | ⟨g, hg, -⟩)
      · simp only [List.mem_singleton] at q4
        subst q4
        have q5 : nm = "i" := by
          rcases q5 with q5 | q5
          · exact absurd q5 (by decide)
          · rw [← q5]; exact hlower _ (by simp [series_names])
        subst q5
        have ha2 : a = 2 := by
          have ha : a < 5 := by
            have := List.getElem?_eq_some_iff.1 q1
            simpa [series_names] using this.1
          interval_cases a <;> simp [series_names] at q1 ⊢
        subst ha2
        rw [hs] at q2
        simp only [List.getElem?_cons_succ, List.getElem?_cons_zero, Option.some.injEq] at q2
        rw [← q2, abs_of_nonneg (by positivity)] at q3
        rw [lt_div_iff₀ (by norm_num)] at q3
        linarith
      · simp at hg
    have hd : d ≠ 1 := fun hd => hnv (e9.1 hd)
    obtain rfl := e6.resolve_right hd
    have hterm : r.terminated = false := by
      rw [Bool.eq_false_iff]
      exact fun h => hd (e8.1 h)
    rw [hterm] at e10
    exact ⟨env', r, ref, e1, hterm, by rw [hobs, hs], e5, by rw [hobs]; exact e7, e10, f2, f3, f4⟩
  intro k
  induction k with
  | zero =>
    intro env i g1 g2 g3 g4 g5 g6 g7
    rw [zero_add, pow_one] at g7 ⊢
    obtain ⟨env', r, ref, e1, e2, e3, e4, e5, -⟩ := one env i g1 g2 g3 g4 g5 g6 g7
    refine ⟨r, ref, ?_, e2, e3, e4, e5⟩
    simp [List.replicate_succ, Core.run, Core.apply, e1]
  | succ k ih =>
    intro env i g1 g2 g3 g4 g5 g6 g7
    have hmono : (i - seriesEnd) * seriesDecay ≤ (i - seriesEnd) * seriesDecay ^ (k + 1 + 1) := by
      refine mul_le_mul_of_nonpos_left ?_ (by linarith)
      calc seriesDecay ^ (k + 1 + 1) ≤ seriesDecay ^ 1 := pow_le_pow_of_le_one hq0.le hq1 (by omega)
        _ = seriesDecay := pow_one _
    obtain ⟨env', r, ref, e1, e2, e3, e4, e5, f1, f2, f3, f4⟩ := one env i g1 g2 g3 g4 g5 g6 (by linarith)
    have hj : seriesEnd + (seriesEnd + (i - seriesEnd) * seriesDecay - seriesEnd) * seriesDecay ^ (k + 1)
        = seriesEnd + (i - seriesEnd) * seriesDecay ^ (k + 1 + 1) := by ring
    have hle : seriesEnd + (i - seriesEnd) * seriesDecay ≤ seriesEnd := by
      have := mul_nonneg (sub_nonneg.2 g6) hq0.le
      linarith
    have hge : 0 ≤ seriesEnd + (i - seriesEnd) * seriesDecay := by
      have h1 := mul_nonneg g5 hq0.le
      have h2 := mul_nonneg (g5.trans g6) (sub_nonneg.2 hq1)
      linarith
    obtain ⟨r', ref', i1, i2⟩ := ih env' _ f1 f2 f3 f4 hge hle (by rw [hj]; exact g7)
    rw [hj] at i2
    refine ⟨r', ref', ?_, i2⟩
    rw [List.replicate_succ]
    simp only [Core.run, Core.apply, e1]
    exact List.mem_cons_of_mem _ i1

/-- After 300 steps with full voltage the current is below its limit, but the torque is above 1.43 times its limit. -/
theorem series_300 : seriesEnd + (0 - seriesEnd) * seriesDecay ^ 300 ≤ 210 ∧
    1.43 < 17 / 10000 * (seriesEnd + (0 - seriesEnd) * seriesDecay ^ 300) ^ 2 / 38 := by
  set X : ℝ := (16 / 1000 + 48 / 1000 + 17 / 10000 * 100) / (19 / 1000000 + 54 / 10000) * (3 / 100) with hX
  have hX1 : 1.2954 ≤ X := by rw [hX]; norm_num
  have hX2 : X ≤ 3 / 2 := by rw [hX]; norm_num
  have hq : seriesDecay ^ 300 = (Real.exp X)⁻¹ := by
    unfold seriesDecay
    rw [← Real.exp_nat_mul, ← Real.exp_neg]
    congr 1
    rw [hX]
    push_cast
    ring
  have hup : Real.exp X ≤ 5.5 := by
    refine (Real.exp_le_exp.2 hX2).trans ?_
    have h3 : Real.exp (3 / 2) ^ 2 = Real.exp 1 ^ 3 := by
      rw [← Real.exp_nat_mul, ← Real.exp_nat_mul]
      norm_num
    have h4 : Real.exp 1 ^ 3 ≤ 2.7182818286 ^ 3 := pow_le_pow_left₀ (Real.exp_pos _).le Real.exp_one_lt_d9.le 3
    refine abs_le_of_sq_le_sq' ?_ (by norm_num) |>.2
    rw [h3]
    exact h4.trans (by norm_num)
  have hlo : 3.49 ≤ Real.exp X := by
    have h := Real.sum_le_exp_of_nonneg (le_trans (by norm_num) hX1 : (0 : ℝ) ≤ X) 4
    simp only [Finset.sum_range_succ, Finset.sum_range_zero, Nat.factorial] at h
    norm_num at h
    nlinarith [pow_le_pow_left₀ (by norm_num) hX1 2, pow_le_pow_left₀ (by norm_num) hX1 3]
  have hpos := Real.exp_pos X
  have q1 : (5.5 : ℝ)⁻¹ ≤ (Real.exp X)⁻¹ := inv_anti₀ hpos hup
  have q2 : (Real.exp X)⁻¹ ≤ (3.49 : ℝ)⁻¹ := inv_anti₀ (by norm_num) hlo
  rw [hq]
  set q := (Real.exp X)⁻¹
  have hE : seriesEnd = 60 / 0.234 := by unfold seriesEnd; norm_num
  rw [hE]
  norm_num at q1 q2 ⊢
  constructor
  · linarith
  · have h1 : (182 : ℝ) < 10000 / 39 + -(10000 / 39 * q) := by linarith
    have h2 := mul_lt_mul'' h1 h1 (by norm_num) (by norm_num)
    rw [lt_div_iff₀ (by norm_num)]
    nlinarith

/-- limits and nominal torque of the default series motor -/
theorem series_values {ra re : ℝ} {torque : List ℝ → ℝ} {tl : Dict ℝ → Dict ℝ → Except Err ℝ} {motor : Dict ℝ × Dict ℝ}
    (h : motorValues .seriesDc ra re torque tl [] [] = .ok motor) {limits nominal : List ℝ}
    (hv : SystemValues .seriesDc motor ([], []) 60 limits nominal) :
    limits = [400, 38, 210, 60, 60] ∧ entry nominal 1 = 16 := by
  have m1 := (motor_keeps h (by simp) (k := "omega") (x := 400) (by norm_num)).1 (by simp [defLimits, dcDefLimits, Limits.lookup_cons, lookup_nil])
  have m2 := (motor_keeps h (by simp) (k := "torque") (x := 38) (by norm_num)).1 (by simp [defLimits, dcDefLimits, Limits.lookup_cons, lookup_nil])
  have m3 := (motor_keeps h (by simp) (k := "i") (x := 210) (by norm_num)).1 (by simp [defLimits, dcDefLimits, Limits.lookup_cons, lookup_nil])
  have m4 := (motor_keeps h (by simp) (k := "u") (x := 60) (by norm_num)).1 (by simp [defLimits, dcDefLimits, Limits.lookup_cons, lookup_nil])
  have m5 := (motor_keeps h (by simp) (k := "torque") (x := 16) (by norm_num)).2 (by simp [defNominal, dcDefNominal, Limits.lookup_cons, lookup_nil])
  constructor
  · have := hv.limits
    simp only [series_names, List.map_cons, List.map_nil, systemValue, m1, m2, m3, m4, lookup_nil, smaller] at this
    have e : limits.map some = ([400, 38, 210, 60, 60] : List ℝ).map some := by
      rw [this]
      simp
    exact List.map_injective_iff.2 (Option.some_injective ℝ) e
  · have := entry_of_map hv.nominal (k := "torque") (by simp [series_names])
    simpa [systemValue, m5, lookup_nil, smaller, series_names, List.idxOf_cons] using this.symm

/-- The references of the environment for torque control do not exceed the nominal torque. -/
theorem series_references {R : Rng H} (hR : RngOk R) {n : String} {nominal : List ℝ} (hnom : entry nominal 1 = 16)
    (hN : NominalOk .seriesDc [400, 38, 210, 60, 60] nominal [n])
    {gen : RefGen τ ℝ} {new : τ → Prop} {reseeded : τ → τ → Prop}
    (hg : Generates R .seriesDc [400, 38, 210, 60, 60] nominal (.one ⟨n, (1 / 1000, 1 / 10), none⟩) τ gen new reseeded) :
    ∃ refHigh fresh ready, Provides gen (low .seriesDc) refHigh fresh ready ∧ (∀ s, new s → fresh s) ∧
      (∀ s s', fresh s → reseeded s s' → fresh s') ∧ List.Forall₂ (· ≤ ·) refHigh (high .seriesDc) ∧
      (n = "torque" → refHigh = [1, 16 / 38, 1, 1, 1]) := by
  have hhigh : high .seriesDc = [1, 1, 1, 1, 1] := rfl
  by_cases hn : n = "torque"
  · subst hn
    cases hg with
    | one g c h =>
      obtain ⟨hs, hmask⟩ := mask_ok h.mask
      have hmar := h.margin
      simp only [marginArg, setMargin, Except.ok.injEq, Prod.mk.injEq] at hmar
      have hidx : (stateNames .seriesDc).idxOf "torque" = 1 := by simp [series_names, List.idxOf_cons]
      rw [hidx, hnom, series_low, hhigh] at hmar
      obtain ⟨m1, m2⟩ := hmar
      have m1 : c.low = 0 := by rw [← m1]; simp [entry]
      have m2 : c.high = 16 / 38 := by rw [← m2]; norm_num [entry]
      have hmask : c.mask = [false, true, false, false, false] := by rw [hmask]; simp [series_names]
      obtain ⟨fresh, ready, h1, h2, h3⟩ := c114_references hR (.wiener (.pair ((1 / 1000 : ℚ) : ℝ) ((1 / 10 : ℚ) : ℝ))) ⟨_, _, rfl⟩ (.pair 500 2000) trivial
        (by norm_num [Range.least]) c h.make h.length (low .seriesDc) [1, 16 / 38, 1, 1, 1] (by rw [series_low]; rfl)
        (by rw [hmask, series_low]; rfl) (by rw [hmask]; simp) (by rw [m1, m2]; norm_num) (by
          intro i hi
          rw [series_low] at hi ⊢
          rw [hmask, m1, m2]
          simp only [List.length_cons, List.length_nil] at hi
          interval_cases i <;> norm_num [entry])
      refine ⟨_, fresh, ready, h1, fun s hs => h2 s hs.1 hs.2, fun s s' hf hr => h3 s s' hf ?_ ?_, ?_, fun _ => rfl⟩
      · rw [hr]
      · rw [hr]
      · rw [hhigh]
        norm_num
  · obtain ⟨-, fresh, ready, h1, h2, h3⟩ := generates_provides hR hg (by simpa [RefArg.list] using hN) (by simp [RefArg.list, MarginOk])
    exact ⟨_, fresh, ready, h1, h2, h3, List.forall₂_same.2 fun _ _ => le_rfl, fun h => absurd h hn⟩

/-- The reward of torque control: the distance of the torque to its reference. -/
theorem series_reward {lower : String → String} (hlower : ∀ n ∈ stateNames .seriesDc, lower n = n) {referenced : List Bool}
    (href : referenced.length = 5) {w : Wse String}
    (hw : setModules lower (Wse.init (some (.dict [("torque", 1)])) false none (9 / 10) (.scalar 1) (.num 0))
      ⟨stateNames .seriesDc, low .seriesDc, high .seriesDc, referenced⟩ = .ok w)
    {s ref : List ℝ} (hs : s.length = 5) (hr : ref.length = 5) {x : ℝ} (hx : number (Reward.reward w s ref 0) = .ok x) :
    x = -|entry s 1 - entry ref 1| := by
  have hsound : Reward.Sound (⟨stateNames .seriesDc, low .seriesDc, high .seriesDc, referenced⟩ : Modules String) := by
    refine ⟨(low_spec .seriesDc).1, by simp [high], href, fun i hi => ?_⟩
    show entry (low .seriesDc) i < entry (high .seriesDc) i
    rw [entry_high _ hi]
    linarith [((low_spec .seriesDc).2 i hi).2]
  obtain ⟨n, ws, v, q1, q2, -, -, q3⟩ := reward_spec lower _ hsound _ _ _ _ _ _ w hw
  have hl : lower "torque" = "torque" := hlower _ (by simp [series_names])
  have hws : ws = [0, 1, 0, 0, 0] := by
    simp [setStateArray, stateDictToStateArray, hl, series_names, lookup] at q2
    exact q2.symm
  have hns : n = [1, 1, 1, 1, 1] := by
    simp [setStateArray, series_names] at q1
    exact q1.symm
  have q3 := q3 s ref hs hr 0
  simp only [Bool.false_eq_true, if_false] at q3
  rw [q3] at hx
  cases v with
  | fin y =>
    simp only [mix, number, Except.ok.injEq] at hx
    rw [← hx, hws, hns]
    simp [errorSum, series_names, Finset.sum_range_succ, relError, entry, series_low, Bias.value, high]
  | inf b => simp [mix, number] at hx
  | nan => simp [mix, number] at hx

theorem forall₂_le_trans {a b c : List ℝ} (h1 : List.Forall₂ (· ≤ ·) a b) (h2 : List.Forall₂ (· ≤ ·) b c) : List.Forall₂ (· ≤ ·) a c := by
  induction h1 generalizing c with
  | nil => exact h2
  | cons h _ ih =>
    cases h2 with
    | cons h' t => exact .cons (h.trans h') (ih t)

/-- Full voltage for 300 steps. -/
theorem c123_series_violated {R : Rng H} (hR : RngOk R) {n : String} (hn : n = "torque" ∨ n = "i")
    {p : Parts ℝ (DcY ℝ) (List ℝ) (List ℝ) S (CConv ℝ) P} (hu : Uses p contPower) (hs : Shaped p (DcShape 1 1)) (hi : Ideal p 60)
    (ht : TracksSeries p seriesDefault constMech) {tq : List ℝ → ℝ} (htq : ∀ i, tq [i] = seriesTorque seriesDefault ![i])
    {ra re : ℝ} {torque : List ℝ → ℝ} {tl : Dict ℝ → Dict ℝ → Except Err ℝ} {motor : Dict ℝ × Dict ℝ}
    (h : motorValues .seriesDc ra re torque tl [] [] = .ok motor)
    {limits nominal : List ℝ} (hv : SystemValues .seriesDc motor ([], []) 60 limits nominal)
    (start : G → G × DcY ℝ) (hstart : ∀ g, (start g).2 = ⟨[100], [0]⟩) (seedSystem : ℕ → G → G)
    {gen : RefGen τ ℝ} {new : τ → Prop} {reseeded : τ → τ → Prop}
    (hg : Generates R .seriesDc limits nominal (.one ⟨n, (1 / 1000, 1 / 10), none⟩) τ gen new reseeded)
    (seedRef : ℕ → τ → τ) (hseed : ∀ n s, reseeded s (seedRef n s)) (lower : String → String)
    (hlower : ∀ n ∈ stateNames .seriesDc, lower n = n) (nCb : ℕ) (x : World S (CConv ℝ) P G τ) {tau : ℝ}
    (hx : x.sys.conv = (newC .four).setTau tau) (hf : new x.ref) :
    ∃ mods, build (Registry.setup (seriesCont n) p (dcFrame id tq [0] 1 1) (dcResetReport tq [0]) limits start seedSystem gen seedRef lower nCb)
        = .ok mods ∧
      ∀ seed, ∃ r, ((.step [1] : Core.Op (World S (CConv ℝ) P G τ) (List ℝ)), Core.Out.step (.done r))
          ∈ (Core.run mods (Core.Env.init mods x) (.reset seed :: List.replicate 300 (.step [1]))).2 ∧
        r.terminated = false ∧ ¬ StateInSpace .seriesDc r ∧ (n = "torque" → ¬ RewardInRange r) := by
  obtain ⟨hlim, hnom⟩ := series_values h hv
  have hN := (c117_default h _).2 _ _ hv
  subst hlim
  have hmem : n ∈ stateNames .seriesDc := by rcases hn with rfl | rfl <;> simp [series_names]
  obtain ⟨refHigh, fresh, ready, g1, g2, g3, g4, g5⟩ := series_references hR hnom (fun k hk => by
    rw [List.mem_singleton] at hk
    subst hk
    exact hN _ hmem) hg
  have href : gen.referenced.length = 5 := (generates_provides hR hg (fun k hk => by
    simp [RefArg.list] at hk
    subst hk
    exact hN _ hmem) (by simp [RefArg.list, MarginOk])).1
  have hfit : Fitting (seriesCont n) ∧ (∀ w ∈ (seriesCont n).weights, 0 < w.2) ∧ ((seriesCont n).weights.map Prod.snd).sum = 1 := by
    rcases hn with rfl | rfl
    · obtain ⟨name', d', hd', hmatch, hfit⟩ := entry_of ⟨.seriesDc, .torque, .continuous⟩
      rw [c123_series.1, Option.some.injEq, Prod.mk.injEq] at hd'
      obtain ⟨-, rfl⟩ := hd'
      exact ⟨hfit, hmatch.positive, hmatch.total⟩
    · obtain ⟨name', d', hd', hmatch, hfit⟩ := entry_of ⟨.seriesDc, .current, .continuous⟩
      rw [c123_series.2, Option.some.injEq, Prod.mk.injEq] at hd'
      obtain ⟨-, rfl⟩ := hd'
      exact ⟨hfit, hmatch.positive, hmatch.total⟩
  obtain ⟨hfit, hpos, hsum⟩ := hfit
  let D : Drive := ⟨DcY ℝ, List ℝ, DcShape 1 1, fun _ => dcFrame id tq [0] 1 1, dcResetReport tq [0]⟩
  obtain ⟨w, mo, idx, e1, -, -⟩ := default_modules (D := D) hfit hsum p [400, 38, 210, 60, 60] start seedSystem gen seedRef lower hlower nCb
  obtain ⟨idle, ha, hid⟩ := drives_accept (D := D) (.seriesDc tq) (Powered.continuous (tau := tau) .four) p hu hs ((seriesCont n).tau : ℝ)
    [400, 38, 210, 60, 60] rfl
  have hcoh := default_coherent (D := D) hfit hpos p [400, 38, 210, 60, 60] start seedSystem href seedRef lower hlower nCb
  obtain ⟨lo, hi', v, w1, w2, w3⟩ := reward_of hcoh e1
  have hwithin : ∀ r, Refs.Within (low .seriesDc) refHigh r → Refs.Within (low .seriesDc) (high .seriesDc) r := fun r hr =>
    ⟨hr.1, forall₂_le_trans hr.2 g4⟩
  refine ⟨comps (Registry.setup (seriesCont n) p (dcFrame id tq [0] 1 1) (dcResetReport tq [0]) [400, 38, 210, 60, 60] start
      seedSystem gen seedRef lower nCb) w mo idx, by simp only [build]; erw [e1]; rfl, fun seed => ?_⟩
  have hinit : (Core.Env.init (comps (Registry.setup (seriesCont n) p (dcFrame id tq [0] 1 1) (dcResetReport tq [0]) [400, 38, 210, 60, 60] start
      seedSystem gen seedRef lower nCb) w mo idx) x).comp = x := by unfold Env.init; rw [fire_comp]
  obtain ⟨env', s, o, h1, h2, h3, h4, g, h5⟩ := reset_detail e1 ha ⟨[1], rfl⟩ (fun g => by
    show DcShape 1 1 (start g).2
    rw [hstart]; exact ⟨rfl, rfl⟩) g1 (fun n t ht => g3 t _ ht (hseed n t))
    (env := Core.Env.init (comps (Registry.setup (seriesCont n) p (dcFrame id tq [0] 1 1) (dcResetReport tq [0]) [400, 38, 210, 60, 60] start
      seedSystem gen seedRef lower nCb) w mo idx) x) (ended := true) ⟨by unfold Env.init; rw [fire_terminated], by rw [hinit, hx]; exact hid,
      by rw [hinit]; exact g2 _ hf, by simp⟩ seed
  have hkey : ∀ ops e, e ∈ (Core.run (comps (Registry.setup (seriesCont n) p (dcFrame id tq [0] 1 1) (dcResetReport tq [0])
      [400, 38, 210, 60, 60] start seedSystem gen seedRef lower nCb) w mo idx) env' ops).2 →
      e ∈ (Core.run (comps (Registry.setup (seriesCont n) p (dcFrame id tq [0] 1 1) (dcResetReport tq [0]) [400, 38, 210, 60, 60] start
      seedSystem gen seedRef lower nCb) w mo idx) (Core.Env.init (comps (Registry.setup (seriesCont n) p (dcFrame id tq [0] 1 1)
      (dcResetReport tq [0]) [400, 38, 210, 60, 60] start seedSystem gen seedRef lower nCb) w mo idx) x) (.reset seed :: ops)).2 := by
    intro ops e he
    rw [Core.run, Core.apply]
    erw [h1]
    exact List.mem_cons_of_mem _ he
  have hz : 0 ≤ seriesEnd := by unfold seriesEnd; norm_num
  obtain ⟨r, ref, r1, r2, r3, r4, r5⟩ := series_run hu hi ht tq start seedSystem seedRef lower hlower nCb rfl hcoh e1 ha g1
    (fun s r e f d hd => (w3 s r e (hwithin r f) d hd).imp fun x h => h.1) 299 env' 0 h3 (by
      rw [h5, hinit]
      show FourFed (p.convReset x.sys.conv).1
      rw [hu.2.2.2, hx]
      exact ⟨_, rfl, rfl, rfl, rfl⟩) (by
      rw [h5]
      show p.solverY (p.setInitial _ (start g).2 0) = _
      rw [(ht.initial _ _ _).1, hstart]) (by
      rw [h5]
      exact (ht.initial _ _ _).2) le_rfl hz series_300.1
  have hgt := series_300.2
  have ht2 : ∀ i, tq [i] = 17 / 10000 * i ^ 2 := fun i => by
    rw [htq]
    show 17 / 10000 * i * i = _
    ring
  have htor : tq [seriesEnd + (0 - seriesEnd) * seriesDecay ^ (299 + 1)] / 38
      = 17 / 10000 * (seriesEnd + (0 - seriesEnd) * seriesDecay ^ 300) ^ 2 / 38 := by
    rw [ht2]
  rw [htor] at r3
  refine ⟨r, ?_, r2, fun hin => ?_, fun hn' hrew => ?_⟩
  · exact hkey _ _ r1
  · unfold StateInSpace at hin
    rw [r3] at hin
    have := hin.2
    have hhigh : high .seriesDc = [1, 1, 1, 1, 1] := rfl
    rw [hhigh] at this
    simp only [List.forall₂_cons] at this
    linarith [this.2.1]
  · subst hn'
    obtain ⟨-, -, -, hw, -⟩ := modules_ok e1
    have hw' : setModules lower (Wse.init (some (.dict [("torque", 1)])) false none (9 / 10) (.scalar 1) (.num 0))
      ⟨stateNames .seriesDc, low .seriesDc, high .seriesDc, gen.referenced⟩ = .ok w := by
      have hone : ((seriesCont "torque").weights.map fun w => (w.1, (w.2 : ℝ))) = [("torque", 1)] := by simp [seriesCont]
      rw [← hone]
      exact hw
    have hlr : ref.length = 5 := by
      rw [r4.2.length_eq, g5 rfl]
      rfl
    have hx := series_reward hlower href hw' (by rw [r3]; rfl) hlr r5
    have hle : entry ref 1 ≤ 16 / 38 := by
      have := r4.2
      rw [g5 rfl] at this
      match ref, this with
      | _ :: b :: _, .cons _ (.cons h _) => simpa [entry] using h
    have e2 : entry r.obs.1 1 = 17 / 10000 * (seriesEnd + (0 - seriesEnd) * seriesDecay ^ 300) ^ 2 / 38 := by rw [r3]; rfl
    rw [e2] at hx
    have h1 := hrew.1
    rw [hx] at h1
    have := le_abs_self (17 / 10000 * (seriesEnd + (0 - seriesEnd) * seriesDecay ^ 300) ^ 2 / 38 - entry ref 1)
    norm_num at hgt hle this h1
    linarith

/-! ## Cases -/

/-- A solver that moves along given motions. -/
def movingParts {A C : Type} (pw : Power A C) (U₀ : ℝ) (motion : ℝ → ℝ → ℝ → ℝ → Fin 2 → ℝ) : Parts ℝ (DcY ℝ) (List ℝ) A (DcY ℝ × ℝ) C Unit :=
  { (restingParts pw : Parts ℝ (DcY ℝ) (List ℝ) A (DcY ℝ × ℝ) C Unit) with
    integrate := fun s u t => match s.1, u with
      | ⟨[w], [i]⟩, [x] => (⟨[motion x w i (max 0 (t - s.2)) 0], [motion x w i (max 0 (t - s.2)) 1]⟩, t)
      | y, _ => (y, t)
    getVoltage := fun s _ _ => (s, [U₀])
    supplyReset := fun s => (s, [U₀]) }

theorem moving_shaped {A C : Type} (pw : Power A C) (U₀ : ℝ) (motion : ℝ → ℝ → ℝ → ℝ → Fin 2 → ℝ) :
    Shaped (movingParts pw U₀ motion) (DcShape 1 1) ∧ Uses (movingParts pw U₀ motion) pw ∧ Ideal (movingParts pw U₀ motion) U₀ := by
  refine ⟨⟨fun _ _ _ => rfl, fun _ => rfl, fun s u t h => ?_, fun _ _ _ h => h⟩, ⟨rfl, rfl, rfl, rfl⟩, ⟨fun _ _ _ => rfl, fun _ => rfl⟩⟩
  show DcShape 1 1 ((movingParts pw U₀ motion).integrate s u t).1
  simp only [movingParts]
  split
  · exact ⟨rfl, rfl⟩
  · exact h

theorem motions_exist {torque : (Fin 1 → ℝ) → ℝ} {ode : (Fin 1 → ℝ) → (Fin 1 → ℝ) → ℝ → Fin 1 → ℝ} (h : OneMotion torque ode)
    (load : AnyLoad) (hl : load.Ok) : ∃ motion : ℝ → ℝ → ℝ → ℝ → Fin 2 → ℝ, ∀ x w i, motion x w i 0 = ![w, i] ∧
      Runs (systemEquation load.mech torque ode 0 none) (fun _ => ![x]) (motion x w i) := by
  have key : ∀ x w i : ℝ, ∃ z : ℝ → Fin 2 → ℝ, z 0 = ![w, i] ∧ Runs (systemEquation load.mech torque ode 0 none) (fun _ => ![x]) z := by
    intro x w i
    obtain ⟨z, h0, hz, -⟩ := h load hl 1 one_pos (fun _ => ![x]) ![w, i]
    exact ⟨z, h0, hz⟩
  choose motion hm using key
  exact ⟨motion, hm⟩

theorem default_motions : OneMotion (seriesTorque seriesDefault) (seriesOde seriesDefault) ∧
    OneMotion (permExTorque permExDefault) (permExOde permExDefault) :=
  (c106_dc seriesDefault permExDefault (by norm_num [seriesDefault]) (by norm_num [seriesDefault]) (by norm_num [seriesDefault])
    (by norm_num [seriesDefault]) (by norm_num [permExDefault]) (by norm_num [permExDefault])).2.2

/-- `c123_permEx` applies to all six environments: motions of the default drives exist. -/
example (m : Registry.Motor) (hm : m.type = .permExDc) : ∃ (name : String) (d : Defaults) (A C τ : Type) (space : A → Prop)
    (mods : Core.Comps (World (DcY ℝ × ℝ) C Unit Unit τ) A (List ℝ) (List ℝ) (List ℝ) ℝ) (x : World (DcY ℝ × ℝ) C Unit Unit τ),
    make m.envId = some (name, d) ∧ (∃ a, space a) ∧
      ∀ ops : List (Core.Op (World (DcY ℝ × ℝ) C Unit Unit τ) A), (∀ op ∈ ops, Proper space op) →
        OnGoing (fun r => StateInSpace d.motor r ∧ RewardInRange r) (Core.run mods (Core.Env.init mods x) ops).2 := by
  obtain ⟨name, d, hd, hmatch, -⟩ := entry_of m
  obtain ⟨A, C, pw, c0, space, hpw⟩ := powered_exists d.tau d.action d.converter
  obtain ⟨motor, hmotor⟩ := default_made d.motor 1 1 (fun _ => 0) (tl := fun _ _ => .ok 1) fun _ _ => ⟨1, rfl⟩
  obtain ⟨⟨limits, nominal, hv⟩, -⟩ := c117_default hmotor (d.supply : ℝ)
  obtain ⟨τ, gen, new, reseeded, hg, ⟨s, hs⟩, hr⟩ := c115_generators demoRng (fun n => n) m hd limits nominal 0
  have hok := permEx_ok m (mem_motors m)
  rw [permExOk, hd] at hok
  obtain ⟨-, -, hload⟩ := of_decide_eq_true hok hm
  obtain ⟨load, hl, hmech⟩ : ∃ load : AnyLoad, load.Ok ∧ load.mech = loadMech (25 / 1000) d.load := by
    rcases hload with h | h | h
    · exact ⟨.const, trivial, by rw [h]; rfl⟩
    · refine ⟨.poly 0 0 0 (1 / 10000) (1 / 1000) [25 / 1000], ?_, ?_⟩
      · constructor <;> norm_num
      · rw [h]; simp [loadMech, AnyLoad.mech, lookup, List.find?]
    · refine ⟨.poly 0 0 0 (1 / 1000) (1 / 1000) [25 / 1000], ?_, ?_⟩
      · constructor <;> norm_num
      · rw [h]; simp [loadMech, AnyLoad.mech, lookup, List.find?]
  obtain ⟨motion, hmo⟩ := motions_exist default_motions.2 load hl
  rw [hmech] at hmo
  obtain ⟨p1, p2, p3⟩ := moving_shaped pw (d.supply : ℝ) motion
  obtain ⟨mods, -, h2⟩ := c123_permEx demoRng_ok m hm hd (tq := fun l => permExTorque permExDefault ![l.headD 0]) (fun _ => rfl) hpw
    (movingParts pw (d.supply : ℝ) motion) p2 p1 p3 (by
      rintro ⟨y, t0⟩ x t w i (rfl : y = _)
      exact ⟨max 0 (t - t0), motion x w i, le_max_left _ _, (hmo x w i).2, (hmo x w i).1, rfl⟩) (fun _ _ _ => rfl) hmotor hv
    (fun g : Unit => (g, ⟨[loadStart d.load], [0]⟩)) (fun _ => rfl) (fun _ g => g) hg (fun _ s => s) (fun _ s => hr s) id
    (fun _ _ => rfl) 1 ⟨{ t := 0, k := 0, solver := (⟨[0], [0]⟩, 0), conv := c0, supply := () }, (), s⟩ rfl hs
  exact ⟨name, d, A, C, τ, space, mods, _, hd, powered_space hpw, h2⟩

/-- `c123_series_violated` applies: there are motions of the default drive. -/
example (n : String) (hn : n = "torque" ∨ n = "i") : ∃ (τ : Type)
    (mods : Core.Comps (World (DcY ℝ × ℝ) (CConv ℝ) Unit Unit τ) (List ℝ) (List ℝ) (List ℝ) (List ℝ) ℝ)
    (x : World (DcY ℝ × ℝ) (CConv ℝ) Unit Unit τ),
      ∀ seed, ∃ r, ((.step [1] : Core.Op (World (DcY ℝ × ℝ) (CConv ℝ) Unit Unit τ) (List ℝ)), Core.Out.step (.done r))
          ∈ (Core.run mods (Core.Env.init mods x) (.reset seed :: List.replicate 300 (.step [1]))).2 ∧
        r.terminated = false ∧ ¬ StateInSpace .seriesDc r ∧ (n = "torque" → ¬ RewardInRange r) := by
  obtain ⟨motor, hmotor⟩ := default_made .seriesDc 1 1 (fun _ => 0) (tl := fun _ _ => .ok 1) fun _ _ => ⟨1, rfl⟩
  obtain ⟨⟨limits, nominal, hv⟩, -⟩ := c117_default hmotor 60
  obtain ⟨τ, gen, new, reseeded, hg, ⟨s, hs⟩, hr⟩ := generates_exists demoRng (fun n => n) .seriesDc limits nominal
    (.one ⟨n, (1 / 1000, 1 / 10), none⟩) (by simp [RefArg.list]) (by rcases hn with rfl | rfl <;> simp [RefArg.list, series_names])
    (by simp [RefArg.list]) 0
  obtain ⟨motion, hmo⟩ := motions_exist default_motions.1 .const trivial
  obtain ⟨p1, p2, p3⟩ := moving_shaped contPower 60 motion
  obtain ⟨mods, -, h2⟩ := c123_series_violated demoRng_ok hn p2 p1 p3 ⟨fun _ _ _ => ⟨rfl, rfl⟩, fun s u t => by
      show ((movingParts contPower 60 motion).integrate s u t).2 = t
      simp only [movingParts]
      split <;> rfl, by
      rintro ⟨y, t0⟩ x t w i (rfl : y = _) (ht : t0 ≤ t)
      refine ⟨motion x w i, (hmo x w i).2, (hmo x w i).1, ?_⟩
      show (⟨[motion x w i (max 0 (t - t0)) 0], [motion x w i (max 0 (t - t0)) 1]⟩ : DcY ℝ) = _
      rw [max_eq_right (sub_nonneg.2 ht)]
      rfl⟩ (tq := fun l => seriesTorque seriesDefault ![l.headD 0]) (fun _ => rfl) hmotor hv
    (fun g : Unit => (g, ⟨[100], [0]⟩)) (fun _ => rfl) (fun _ g => g) hg (fun _ s => s) (fun _ s => hr s) id
    (fun _ _ => rfl) 1 ⟨{ t := 0, k := 0, solver := (⟨[0], [0]⟩, 0), conv := (newC .four).setTau 1, supply := () }, (), s⟩ rfl hs
  exact ⟨τ, mods, _, h2⟩

/-- `c123_current` applies to all environments for current control: motors that do not move, limits 2 and nominal values 1. -/
example (m : Registry.Motor) (hm : m.control = .current) : ∃ (name : String) (d : Defaults) (D : Drive) (A C τ : Type) (space : A → Prop)
    (mods : Core.Comps (World (D.Y × ℝ) C Unit Unit τ) A (List ℝ) (List ℝ) (List ℝ) ℝ) (x : World (D.Y × ℝ) C Unit Unit τ),
    make m.envId = some (name, d) ∧ (∃ a, space a) ∧
      ∀ ops : List (Core.Op (World (D.Y × ℝ) C Unit Unit τ) A), (∀ op ∈ ops, Proper space op) →
        OnGoing RewardInRange (Core.run mods (Core.Env.init mods x) ops).2 := by
  obtain ⟨name, d, hd, hmatch, -⟩ := entry_of m
  obtain ⟨D, hD, y, hy⟩ := drives_exists d.motor
  obtain ⟨A, C, pw, c0, space, hpw⟩ := powered_exists d.tau d.action d.converter
  obtain ⟨τ, gen, new, reseeded, hg, ⟨s, hs⟩, hr⟩ := c115_generators demoRng (fun n => n) m hd
    (List.replicate (stateNames d.motor).length 2) (List.replicate (stateNames d.motor).length 1) 0
  obtain ⟨mods, -, h2⟩ := c123_current demoRng_ok m hm hd hD hpw (restingParts pw) ⟨rfl, rfl, rfl, rfl⟩
    ⟨fun _ _ _ => rfl, fun _ => rfl, fun _ _ _ h => h, fun _ _ _ h => h⟩ _ _ (by simp) (fun n hn => by
      simp only [Nominal, entry, List.getD_eq_getElem?_getD, List.getElem?_replicate]
      split_ifs <;> norm_num) (fun g : Unit => (g, y)) (fun _ => hy) (fun _ g => g) hg (fun _ s => s) (fun _ s => hr s) id
    (fun _ _ => rfl) 1 ⟨{ t := 0, k := 0, solver := (y, 0), conv := c0, supply := () }, (), s⟩ rfl hs
  exact ⟨name, d, D, A, C, τ, space, mods, _, hd, powered_space hpw, h2⟩

end registered

end

end GEM.Props
