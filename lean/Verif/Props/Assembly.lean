import Verif.Spec.Assembly
import Verif.Props.Accepts
import Verif.Props.Env
import Verif.Props.References
import Verif.Props.Reward
import Verif.Props.Utils

/-!
# C114: a whole environment
-/

set_option linter.unusedSectionVars false

namespace GEM.Props

open GEM GEM.Core GEM.Reward GEM.Utils GEM.Constr GEM.Assembly

noncomputable section

variable {Y U A S C P G τ : Type}

/-! ## The modules after construction -/

/-- The state names, the state space and the arguments of the environment fit together. -/
structure Coherent (c : Setup Y U A S C P G τ) : Prop where
  sound : Reward.Sound (⟨c.names, c.low, c.high, c.gen.referenced⟩ : Modules String)
  distinct : c.names.Nodup
  lower : ∀ n ∈ c.names, c.lower n = n
  normalised : ∀ g ∈ c.squares, ∀ n ∈ g, entry c.high (c.names.idxOf n) = 1
  wse : ∃ weights normed violation gamma power bias, c.wse = Wse.init weights normed violation gamma power bias ∧
    NonnegArg weights ∧ Nonneg power ∧ (violation = none → gamma ≠ 1) ∧
    (normed = true → ∀ w, setStateArray c.lower c.names
      (weights.getD (defaultWeights ⟨c.names, c.low, c.high, c.gen.referenced⟩)) = .ok w → w.sum ≠ 0)

theorem modules_ok {c : Setup Y U A S C P G τ} {w : Wse String} {m : Monitor (List ℝ) ℝ} {idx : List ℕ}
    (h : modules c = .ok (w, m, idx)) :
    ∃ qs, c.squares.mapM (squaredModules c.names c.high c.limits) = .ok qs ∧
      envMonitor c.lower c.allStates c.names (c.limited.map .name ++ qs.map fun q => .constr (squaredCall q)) = .ok m ∧
      setModules c.lower c.wse ⟨c.names, c.low, c.high, c.gen.referenced⟩ = .ok w ∧ stateFilter c.names c.filter = .ok idx := by
  unfold modules at h
  split at h
  · simp at h
  · rename_i qs hq
    split at h
    · simp at h
    · rename_i m' hm
      split at h
      · simp at h
      · rename_i w' hw
        split at h
        · simp at h
        · rename_i idx' hi
          simp only [Except.ok.injEq, Prod.mk.injEq] at h
          obtain ⟨rfl, rfl, rfl⟩ := h
          exact ⟨qs, hq, hm, hw, hi⟩

theorem mapM_ok {α β : Type} {f : α → Except Err β} {l : List α} {r : List β} (h : l.mapM f = .ok r) :
    List.Forall₂ (fun a b => f a = .ok b) l r := by
  induction l generalizing r with
  | nil =>
    simp only [List.mapM_nil, pure, Except.pure, Except.ok.injEq] at h
    subst h
    exact .nil
  | cons a l ih =>
    rw [List.mapM_cons] at h
    cases ha : f a with
    | error e => simp [ha, bind, Except.bind] at h
    | ok b =>
      cases hl : l.mapM f with
      | error e => simp [ha, hl, bind, Except.bind] at h
      | ok bs =>
        simp only [ha, hl, bind, Except.bind, pure, Except.pure, Except.ok.injEq] at h
        subst h
        exact .cons ha (ih hl)

theorem degree_of {c : Setup Y U A S C P G τ} (hc : Coherent c) {w : Wse String} {m : Monitor (List ℝ) ℝ} {idx : List ℕ}
    (h : modules c = .ok (w, m, idx)) (s : List ℝ) (hs : s.length = c.names.length) :
    ∃ d : ℝ, m.check s = .ok d ∧ (d = 0 ∨ d = 1) ∧ (d = 1 ↔ Violates c.lower c.allStates c.names c.limited c.squares s) := by
  obtain ⟨qs, hq, hm, -, -⟩ := modules_ok h
  have hq := mapM_ok hq
  obtain ⟨d, h1, h2, h3⟩ := c10_counts_partial c.lower c.allStates c.names hc.lower _ (by simp) m hm s hs
  -- the squared constraints
  have hsq : ∀ q ∈ qs, ∃ g ∈ c.squares, (squaredCall q s = 0 ∨ squaredCall q s = 1) ∧
      (squaredCall q s = 1 ↔ 1 < (g.map fun n => entry s (c.names.idxOf n) ^ 2).sum) := by
    intro q hqm
    obtain ⟨j, hj⟩ := List.getElem?_of_mem hqm
    obtain ⟨g, hg, hgq⟩ : ∃ g, g ∈ c.squares ∧ squaredModules c.names c.high c.limits g = .ok q := by
      have := hq.flip
      obtain ⟨g, hg, e⟩ := List.forall₂_iff_get.1 hq |>.2 |> fun hh => by
        have hjl : j < qs.length := (List.getElem?_eq_some_iff.1 hj).1
        have hjs : j < c.squares.length := by rw [hq.length_eq]; exact hjl
        refine (⟨c.squares[j], List.getElem_mem hjs, ?_⟩ : ∃ g, g ∈ c.squares ∧ squaredModules c.names c.high c.limits g = .ok q)
        have := hh j hjs hjl
        simp only [List.get_eq_getElem] at this
        rw [this, (List.getElem?_eq_some_iff.1 hj).2]
      exact ⟨g, hg, e⟩
    refine ⟨g, hg, ?_⟩
    have := c09_exact c.names c.high c.limits g q hgq true (fun n hn => by simpa [entry] using hc.normalised g hg n hn) s
    simpa [entry] using this
  have hsq' : ∀ g ∈ c.squares, ∃ q ∈ qs, (squaredCall q s = 1 ↔ 1 < (g.map fun n => entry s (c.names.idxOf n) ^ 2).sum) := by
    intro g hg
    obtain ⟨j, hj⟩ := List.getElem?_of_mem hg
    have hjs : j < c.squares.length := (List.getElem?_eq_some_iff.1 hj).1
    have hjl : j < qs.length := by rw [← hq.length_eq]; exact hjs
    have e := (List.forall₂_iff_get.1 hq).2 j hjs hjl
    simp only [List.get_eq_getElem] at e
    rw [(List.getElem?_eq_some_iff.1 hj).2] at e
    refine ⟨qs[j], List.getElem_mem hjl, ?_⟩
    have := c09_exact c.names c.high c.limits g _ e true (fun n hn => by simpa [entry] using hc.normalised g hg n hn) s
    simpa [entry] using this.2
  have h01 : ∀ a ∈ (c.limited.map Arg.name ++ qs.map fun q => Arg.constr (squaredCall q) : List (Arg String ℝ)),
      (argDegree c.lower c.allStates c.names s a = 0 ∨ argDegree c.lower c.allStates c.names s a = 1) ∧
      (argDegree c.lower c.allStates c.names s a = 1 → Violates c.lower c.allStates c.names c.limited c.squares s) := by
    intro a ha
    rcases List.mem_append.1 ha with ha | ha
    · obtain ⟨k, hk, rfl⟩ := List.mem_map.1 ha
      simp only [argDegree]
      split
      · rename_i hex
        refine ⟨Or.inr rfl, fun _ => Or.inl ?_⟩
        obtain ⟨i, hi, x, hx, hx1, hn⟩ := hex
        exact ⟨i, c.names[i], x, List.getElem?_eq_getElem hi, hx, hx1, k, hk, hn⟩
      · exact ⟨Or.inl rfl, fun h => absurd h zero_ne_one⟩
    · obtain ⟨q, hqm, rfl⟩ := List.mem_map.1 ha
      obtain ⟨g, hg, e1, e2⟩ := hsq q hqm
      exact ⟨e1, fun h => Or.inr ⟨g, hg, e2.1 h⟩⟩
  refine ⟨d, h1, ?_, ?_, ?_⟩
  · rcases h3 with ⟨-, rfl⟩ | ⟨a, ha, rfl⟩
    · exact Or.inl rfl
    · exact (h01 a ha).1
  · intro hd
    rcases h3 with ⟨-, rfl⟩ | ⟨a, ha, rfl⟩
    · exact absurd hd zero_ne_one
    · exact (h01 a ha).2 hd
  · intro hv
    have hge : (1 : ℝ) ≤ d := by
      rcases hv with ⟨i, n, x, hi, hx, hx1, k, hk, hkn⟩ | ⟨g, hg, hsum⟩
      · have := h2 (.name k) (by simp [hk])
        obtain ⟨hil, rfl⟩ := List.getElem?_eq_some_iff.1 hi
        have hex : ∃ i, ∃ hi : i < c.names.length, ∃ x, s[i]? = some x ∧ 1 < |x| ∧ (k = c.allStates ∨ c.lower k = c.names[i]) :=
          ⟨i, hil, x, hx, hx1, hkn⟩
        simp only [argDegree] at this
        rwa [if_pos hex] at this
      · obtain ⟨q, hqm, e⟩ := hsq' g hg
        have := h2 (.constr (squaredCall q)) (List.mem_append_right _ (List.mem_map.2 ⟨q, hqm, rfl⟩))
        simp only [argDegree] at this
        rwa [e.2 hsum] at this
    rcases h3 with ⟨-, rfl⟩ | ⟨a, ha, rfl⟩
    · linarith
    · rcases (h01 a ha).1 with h | h
      · rw [h] at hge; linarith
      · exact h

theorem within_inSpace {c : Setup Y U A S C P G τ} (hc : Coherent c) {s : List ℝ} (h : Refs.Within c.low c.high s) :
    InSpace ⟨c.names, c.low, c.high, c.gen.referenced⟩ s := by
  have hl : s.length = c.names.length := by rw [← h.1.length_eq]; exact hc.sound.low
  refine ⟨hl, fun i hi => ?_⟩
  have h1 := (List.forall₂_iff_get.1 h.1).2 i (by rw [hc.sound.low]; exact hi) (by rw [hl]; exact hi)
  have h2 := (List.forall₂_iff_get.1 h.2).2 i (by rw [hl]; exact hi) (by rw [hc.sound.high]; exact hi)
  simp only [List.get_eq_getElem] at h1 h2
  have e1 : i < c.low.length := by rw [hc.sound.low]; exact hi
  have e2 : i < c.high.length := by rw [hc.sound.high]; exact hi
  have e3 : i < s.length := by rw [hl]; exact hi
  simp only [entry, List.getD_eq_getElem?_getD, List.getElem?_eq_getElem e1, List.getElem?_eq_getElem e2,
    List.getElem?_eq_getElem e3, Option.getD_some]
  exact ⟨h1, h2⟩

theorem reward_of {c : Setup Y U A S C P G τ} (hc : Coherent c) {w : Wse String} {m : Monitor (List ℝ) ℝ} {idx : List ℕ}
    (h : modules c = .ok (w, m, idx)) :
    ∃ lo hi v, w.range = some (lo, hi) ∧ w.violation = some (.fin v) ∧
      ∀ s r : List ℝ, s.length = c.names.length → Refs.Within c.low c.high r →
        ∀ d, d = 0 ∨ d = 1 → ∃ x, number (Reward.reward w s r d) = .ok x ∧ (d = 1 → x = v) ∧
          (d = 0 → Refs.Within c.low c.high s → lo ≤ x ∧ x ≤ hi) := by
  obtain ⟨-, -, -, hw, -⟩ := modules_ok h
  obtain ⟨weights, normed, violation, gamma, power, bias, e, h1, h2, h3, h4⟩ := hc.wse
  rw [e] at hw
  obtain ⟨n, ws, vv, q1, q2, q3, q4, q5⟩ := reward_spec c.lower _ hc.sound weights normed violation gamma power bias w hw
  have hv : ∃ v, vv = .fin v := by
    cases violation with
    | some y => rw [violationOf_some, Except.ok.injEq] at q3; exact ⟨y, q3.symm⟩
    | none => rw [violationOf_none, defaultViolation_ok _ _ _ (h3 rfl), Except.ok.injEq] at q3; exact ⟨_, q3.symm⟩
  obtain ⟨v, rfl⟩ := hv
  have hviol : w.violation = some (.fin v) := by
    obtain ⟨n', w', v', -, b2, b3, rfl⟩ := setModules_spec c.lower _ weights normed violation gamma power bias w hw
    rw [q2, Except.ok.injEq] at b2
    subst b2
    rw [q3, Except.ok.injEq] at b3
    subst b3
    rfl
  obtain ⟨⟨lo, hi⟩, hrange⟩ : ∃ p, w.range = some p := ⟨_, q4⟩
  refine ⟨lo, hi, v, hrange, hviol, fun s r hs hr d hd => ?_⟩
  have hr' := within_inSpace hc hr
  obtain ⟨x, hx⟩ := c45_total c.lower _ hc.sound weights normed violation gamma power bias w hw h3 h4 s r hs hr'.1 d
  refine ⟨x, by rw [hx]; rfl, ?_, ?_⟩
  · rintro rfl
    rw [q5 s r hs hr'.1, Except.ok.injEq] at hx
    obtain ⟨y, -, hy⟩ := mix_fin hx
    rw [hy]
    ring
  · rintro rfl hin
    obtain ⟨lo', hi', e1, e2, e3, -⟩ := c45_range c.lower _ hc.sound weights normed violation gamma power bias w hw h1 h2 s r
      (within_inSpace hc hin) hr' x hx
    rw [hrange] at e1
    simp only [Option.some.injEq, Prod.mk.injEq] at e1
    obtain ⟨rfl, rfl⟩ := e1
    exact ⟨e2, e3⟩

theorem observation_of {c : Setup Y U A S C P G τ} {w : Wse String} {m : Monitor (List ℝ) ℝ} {idx : List ℕ}
    (h : modules c = .ok (w, m, idx)) (s : List ℝ) : take s idx = (shown c).map (fun n => entry s (c.names.idxOf n)) := by
  obtain ⟨-, -, -, -, hi⟩ := modules_ok h
  have key : ∀ l : List String, l.mapM (indexOf c.names) = .ok idx → take s idx = l.map (fun n => entry s (c.names.idxOf n)) := by
    intro l hl
    obtain ⟨rfl, -⟩ := mapM_index c.names l idx hl
    simp only [take, List.map_map]
    rfl
  unfold shown
  unfold stateFilter at hi
  split <;> rename_i hf <;> rw [hf] at hi
  · exact key _ hi
  · exact key _ hi
  · rename_i l hl
    cases l with
    | nil => exact absurd rfl hl
    | cons a l => exact key _ hi

/-! ## The physical system within an episode -/

/-- reachable by a reset and actions of the action space -/
def Running (c : Setup Y U A S C P G τ) (conv : C → Prop) (shape : Y → Prop) (space : A → Prop) (st : Sys.St ℝ S C P) : Prop :=
  ∃ st0 y as n, conv st0.conv ∧ shape y ∧ (∀ i, space (as i)) ∧
    st = Sys.simulates c.p c.f c.tau c.limits (Sys.reset c.p c.rep c.limits st0 y).1 ((List.range n).map as)

section system

variable {c : Setup Y U A S C P G τ} {conv : C → Prop} {shape : Y → Prop} {space : A → Prop}
  (ha : AcceptsAll c.p c.f c.rep c.tau c.limits c.names.length conv shape space)

include ha

theorem running_conv {st : Sys.St ℝ S C P} (h : Running c conv shape space st) : conv st.conv := by
  obtain ⟨st0, y, as, n, h1, h2, h3, rfl⟩ := h
  exact ((ha st0 y as h1 h2 h3).2 n).1

theorem running_reset {st : Sys.St ℝ S C P} (h : conv st.conv) {y : Y} (hy : shape y) (a : A) (hs : space a) :
    Running c conv shape space (Sys.reset c.p c.rep c.limits st y).1 :=
  ⟨st, y, fun _ => a, 0, h, hy, fun _ => hs, rfl⟩

theorem running_step {st : Sys.St ℝ S C P} (h : Running c conv shape space st) (a : A) (hs : space a) :
    ∃ st' s, Sys.simulate c.p c.f c.tau c.limits st a = (st', .ok s) ∧ s.length = c.names.length ∧ Running c conv shape space st' := by
  obtain ⟨st0, y, as, n, h1, h2, h3, rfl⟩ := h
  set bs : ℕ → A := fun i => if i < n then as i else a with hbs
  have hb : ∀ i, space (bs i) := fun i => by simp only [hbs]; split <;> [exact h3 i; exact hs]
  have e : (List.range n).map as = (List.range n).map bs := by
    refine List.map_congr_left fun i hi => ?_
    simp [hbs, List.mem_range.1 hi]
  have ea : bs n = a := by simp [hbs]
  rw [e]
  obtain ⟨s, hs1, hs2⟩ := ((ha st0 y bs h1 h2 hb).2 n).2
  rw [ea] at hs1
  refine ⟨_, s, Prod.ext rfl hs1, hs2, st0, y, bs, n + 1, h1, h2, hb, ?_⟩
  simp [Sys.simulates, List.range_succ, ea]

end system

/-! ## The environment -/

theorem fire_comp (c : Setup Y U A S C P G τ) (w : Wse String) (m : Monitor (List ℝ) ℝ) (idx : List ℕ)
    (env : Env (World S C P G τ) A (List ℝ) (List ℝ) (List ℝ) ℝ) (e : CbEvent A (List ℝ) (List ℝ) ℝ) :
    (env.fire (comps c w m idx) e).comp = env.comp := by
  simp only [Env.fire, comps]
  generalize List.range c.nCb = l
  induction l with
  | nil => rfl
  | cons i l ih => simpa using ih

theorem simulate_k {p : Sys.Parts ℝ Y U A S C P} {f : Sys.Frame ℝ Y U A} {tau : ℝ} {limits : List ℝ} {st st' : Sys.St ℝ S C P} {a : A}
    {s : List ℝ} (h : Sys.simulate p f tau limits st a = (st', .ok s)) : st'.k = st.k + 1 := by
  unfold Sys.simulate at h
  simp only [] at h
  split at h
  · simp at h
  · rename_i times ht
    have h1 := Sys.pieces_tk p f times.dropLast { st with conv := (p.setAction st.conv (f.action (p.solverY st.solver) a) st.t).1 }
    unfold Call.bind at h
    split at h
    · generalize (Sys.pieces p f times.dropLast
        { st with conv := (p.setAction st.conv (f.action (p.solverY st.solver) a) st.t).1 }).1 = mid at h1 h
      have h2 := Sys.piece_tk p f f.lastU mid (mid.t + tau)
      simp only [] at h
      split at h
      · simp only [Prod.mk.injEq] at h
        rw [← h.1]
        simp only []
        rw [h2.2, h1.2]
      · simp at h
    · simp at h

/-- between the calls: `ended` as in `Conforms` -/
structure Idle (c : Setup Y U A S C P G τ) (conv : C → Prop) (shape : Y → Prop) (space : A → Prop) (fresh ready : τ → Prop)
    (ended : Bool) (env : Env (World S C P G τ) A (List ℝ) (List ℝ) (List ℝ) ℝ) : Prop where
  flag : env.terminated = ended
  form : conv env.comp.sys.conv
  unused : fresh env.comp.ref
  running : ended = false → Running c conv shape space env.comp.sys ∧ ready env.comp.ref

section environment

variable {c : Setup Y U A S C P G τ} {conv : C → Prop} {shape : Y → Prop} {space : A → Prop} {fresh ready : τ → Prop}
  {w : Wse String} {m : Monitor (List ℝ) ℝ} {idx : List ℕ} {lo hi v : ℝ}

/-- A reset: the physical system is reset to a start state. -/
theorem reset_detail (hm : modules c = .ok (w, m, idx)) (ha : AcceptsAll c.p c.f c.rep c.tau c.limits c.names.length conv shape space)
    (hne : ∃ a, space a) (hstart : ∀ g, shape (c.start g).2)
    {refLow refHigh : List ℝ} (hr : Provides c.gen refLow refHigh fresh ready) (hseed : ∀ n t, fresh t → fresh (c.seedRef n t)) {ended : Bool}
    {env : Env (World S C P G τ) A (List ℝ) (List ℝ) (List ℝ) ℝ} (h : Idle c conv shape space fresh ready ended env) (n : ℕ) :
    ∃ env' s o, env.reset (comps c w m idx) n = (env', .ok o) ∧ Shows c s o ∧ Idle c conv shape space fresh ready false env' ∧
      env'.comp.sys.k = 0 ∧ ∃ g, env'.comp.sys = (Sys.reset c.p c.rep c.limits env.comp.sys (c.start g).2).1 := by
  obtain ⟨a, hs⟩ := hne
  set x := c.seedSystem n env.comp.draws with hx
  obtain ⟨s, hs1, hs2⟩ := (ha env.comp.sys (c.start x).2 (fun _ => a) h.form (hstart _) (fun _ => hs)).1
  obtain ⟨t', r, o, h1, h2, h3, h4⟩ := hr.reset (c.seedRef n env.comp.ref) s none (hseed _ _ h.unused) (by simp)
  have hrun := running_reset ha h.form (hstart x) a hs
  have hobs := observation_of hm s
  have e1 : (comps c w m idx).psReset ((comps c w m idx).seed n env.comp)
      = (⟨(Sys.reset c.p c.rep c.limits env.comp.sys (c.start x).2).1, (c.start x).1, c.seedRef n env.comp.ref⟩, .ok s) := by
    simp only [comps, ← hx, hs1]
  have e2 : (comps c w m idx).refReset ⟨(Sys.reset c.p c.rep c.limits env.comp.sys (c.start x).2).1, (c.start x).1,
      c.seedRef n env.comp.ref⟩ s = (⟨(Sys.reset c.p c.rep c.limits env.comp.sys (c.start x).2).1, (c.start x).1, t'⟩, .ok (r, o)) := by
    simp only [comps, h1]
  unfold Env.reset
  simp only [Env.call, fire_comp, Call.bind, e1, e2]
  refine ⟨_, s, _, rfl, ⟨hs2, hobs, h3⟩, ⟨?_, ?_, ?_, ?_⟩, ?_, x, ?_⟩
  · rw [fire_terminated]
  · rw [fire_comp]
    exact running_conv ha hrun
  · rw [fire_comp]
    exact hr.fresh _ h4
  · intro _
    rw [fire_comp]
    exact ⟨hrun, h4⟩
  · rw [fire_comp]
    rfl
  · rw [fire_comp]
    rfl

theorem reset_conforms (hm : modules c = .ok (w, m, idx)) (ha : AcceptsAll c.p c.f c.rep c.tau c.limits c.names.length conv shape space)
    (hne : ∃ a, space a) (hstart : ∀ g, shape (c.start g).2)
    (hr : Provides c.gen c.low c.high fresh ready) (hseed : ∀ n t, fresh t → fresh (c.seedRef n t)) {ended : Bool}
    {env : Env (World S C P G τ) A (List ℝ) (List ℝ) (List ℝ) ℝ} (h : Idle c conv shape space fresh ready ended env) (n : ℕ) :
    ∃ env' s o, env.reset (comps c w m idx) n = (env', .ok o) ∧ Shows c s o ∧ Idle c conv shape space fresh ready false env' ∧
      env'.comp.sys.k = 0 := by
  obtain ⟨env', s, o, h1, h2, h3, h4, -⟩ := reset_detail hm ha hne hstart hr hseed h n
  exact ⟨env', s, o, h1, h2, h3, h4⟩

/-- A step of a running episode: the state `s`, the reference `ref` and the degree `d` of the violation of which it is made. -/
theorem step_detail (hc : Coherent c) (hm : modules c = .ok (w, m, idx))
    (ha : AcceptsAll c.p c.f c.rep c.tau c.limits c.names.length conv shape space) {refLow refHigh : List ℝ}
    (hr : Provides c.gen refLow refHigh fresh ready)
    (hw : ∀ s r : List ℝ, s.length = c.names.length → Refs.Within refLow refHigh r →
        ∀ d, d = 0 ∨ d = 1 → ∃ x, number (Reward.reward w s r d) = .ok x)
    {env : Env (World S C P G τ) A (List ℝ) (List ℝ) (List ℝ) ℝ} (h : Idle c conv shape space fresh ready false env) (a : A)
    (hs : space a) :
    ∃ env' r s ref d, env.step (comps c w m idx) a = (env', .done r) ∧
      Sys.simulate c.p c.f c.tau c.limits env.comp.sys a = (env'.comp.sys, .ok s) ∧ Shows c s r.obs ∧ r.truncated = false ∧
      Refs.Within refLow refHigh ref ∧ (d = 0 ∨ d = 1) ∧ number (Reward.reward w s ref d) = .ok r.reward ∧
      (r.terminated = true ↔ d = 1) ∧ (d = 1 ↔ Violates c.lower c.allStates c.names c.limited c.squares s) ∧
      Idle c conv shape space fresh ready r.terminated env' ∧ env'.comp.sys.k = env.comp.sys.k + 1 := by
  obtain ⟨h1, h2⟩ := h.running rfl
  obtain ⟨st', s, e1, e2, e3⟩ := running_step ha h1 a hs
  obtain ⟨t', r, f1, f2, f3⟩ := hr.getRef _ s h2
  obtain ⟨t'', o, g1, g2, g3⟩ := hr.getObs _ s f3
  obtain ⟨d, d1, d2, d3⟩ := degree_of hc hm s e2
  obtain ⟨x, x1⟩ := hw s r e2 f2 d d2
  have hobs := observation_of hm s
  have k1 : (comps c w m idx).simulate env.comp a = ({ env.comp with sys := st' }, .ok s) := by simp only [comps, e1]
  have k2 : (comps c w m idx).getRef { env.comp with sys := st' } s = ({ env.comp with sys := st', ref := t' }, .ok r) := by
    simp only [comps, f1]
  have k3 : (comps c w m idx).check { env.comp with sys := st', ref := t' } s = ({ env.comp with sys := st', ref := t' }, .ok d) := by
    simp only [comps, d1]
  have k4 : ∀ k, (comps c w m idx).reward { env.comp with sys := st', ref := t' } s r k a d
      = ({ env.comp with sys := st', ref := t' }, .ok x) := by
    intro k
    simp only [comps, x1]
  have k5 : (comps c w m idx).refObs { env.comp with sys := st', ref := t' } s = ({ env.comp with sys := st', ref := t'' }, .ok o) := by
    simp only [comps, g1]
  unfold Env.step
  rw [h.flag]
  simp only [Bool.false_eq_true, if_false]
  unfold Env.stepBody
  simp only [Env.call, fire_comp, Call.bind, k1, k2, k3, k4, k5, fire_terminated]
  have hd : (1 ≤ d) ↔ d = 1 := by
    rcases d2 with rfl | rfl <;> norm_num
  refine ⟨_, _, s, r, d, rfl, ?_, ⟨e2, hobs, g2⟩, rfl, f2, d2, x1, ?_, d3, ⟨?_, ?_, ?_, ?_⟩, ?_⟩
  · rw [fire_comp]
    exact e1
  · rw [decide_eq_true_iff, hd]
  · rw [fire_terminated]
  · rw [fire_comp]
    exact running_conv ha e3
  · rw [fire_comp]
    exact hr.fresh _ g3
  · intro _
    rw [fire_comp]
    exact ⟨e3, g3⟩
  · rw [fire_comp]
    exact simulate_k e1

theorem step_conforms (hc : Coherent c) (hm : modules c = .ok (w, m, idx))
    (ha : AcceptsAll c.p c.f c.rep c.tau c.limits c.names.length conv shape space) (hr : Provides c.gen c.low c.high fresh ready)
    (hw : ∀ s r : List ℝ, s.length = c.names.length → Refs.Within c.low c.high r →
        ∀ d, d = 0 ∨ d = 1 → ∃ x, number (Reward.reward w s r d) = .ok x ∧ (d = 1 → x = v) ∧
          (d = 0 → Refs.Within c.low c.high s → lo ≤ x ∧ x ≤ hi))
    {env : Env (World S C P G τ) A (List ℝ) (List ℝ) (List ℝ) ℝ} (h : Idle c conv shape space fresh ready false env) (a : A)
    (hs : space a) :
    ∃ env' r, env.step (comps c w m idx) a = (env', .done r) ∧ StepOk c lo hi v r ∧
      Idle c conv shape space fresh ready r.terminated env' ∧ env'.comp.sys.k = env.comp.sys.k + 1 := by
  obtain ⟨env', r, s, ref, d, h1, -, h3, h4, h5, h6, h7, h8, h9, h10, h11⟩ := step_detail hc hm ha hr
    (fun s r e f d hd => (hw s r e f d hd).imp fun x h => h.1) h a hs
  obtain ⟨x, x1, x2, x3⟩ := hw s ref h3.1 h5 d h6
  rw [h7, Except.ok.injEq] at x1
  refine ⟨env', r, h1, ⟨s, h3, h4, h8.trans h9, fun ht => ?_, fun ht hin => ?_⟩, h10, h11⟩
  · rw [x1]
    exact x2 (h8.1 ht)
  · rw [x1]
    refine x3 (h6.resolve_right fun hd => ?_) hin
    rw [h8.2 hd] at ht
    simp at ht

/-- C114: an environment whose physical system accepts the actions of its action space (C109: all motors and converters of the
package) and whose reference generator provides references (`c114_references`, `c114_multiple`, `c114_switched`).  In every history of
resets and steps with actions of the action space: a reset always answers, a step of a running episode always answers, steps at other
times are rejected; every observation shows one value per observed state and a reference inside the reference space; the episode ends
exactly if the state violates a constraint; the reward is then the violation reward, and otherwise lies in `reward_range` if the state
lies in the state space.  `physical_system.k` counts the steps since the last reset. -/
theorem c114_environment_partial (hc : Coherent c) (hm : modules c = .ok (w, m, idx))
    (ha : AcceptsAll c.p c.f c.rep c.tau c.limits c.names.length conv shape space) (hne : ∃ a, space a)
    (hstart : ∀ g, shape (c.start g).2) (hr : Provides c.gen c.low c.high fresh ready)
    (hseed : ∀ n t, fresh t → fresh (c.seedRef n t)) (x : World S C P G τ) (hx : conv x.sys.conv) (hf : fresh x.ref)
    (hk : x.sys.k = 0) (ops : List (Op (World S C P G τ) A)) (hops : ∀ op ∈ ops, Proper space op) :
    ∃ lo hi v, w.range = some (lo, hi) ∧ w.violation = some (.fin v) ∧
      Conforms c lo hi v true (run (comps c w m idx) (Env.init (comps c w m idx) x) ops).2 ∧
      (run (comps c w m idx) (Env.init (comps c w m idx) x) ops).1.comp.sys.k
        = stepsSinceReset (run (comps c w m idx) (Env.init (comps c w m idx) x) ops).2 := by
  obtain ⟨lo, hi, v, w1, w2, w3⟩ := reward_of hc hm
  refine ⟨lo, hi, v, w1, w2, ?_⟩
  have key : ∀ (ops : List (Op (World S C P G τ) A)) (_ : ∀ op ∈ ops, Proper space op) (ended : Bool)
      (env : Env (World S C P G τ) A (List ℝ) (List ℝ) (List ℝ) ℝ), Idle c conv shape space fresh ready ended env →
      Conforms c lo hi v ended (run (comps c w m idx) env ops).2 ∧
        (run (comps c w m idx) env ops).1.comp.sys.k = (run (comps c w m idx) env ops).2.foldl (fun n h => match h with
          | (.reset _, _) => 0
          | (.step _, .step (.done _)) => n + 1
          | _ => n) env.comp.sys.k := by
    intro ops
    induction ops with
    | nil => intro _ ended env _; exact ⟨by simp [run, Conforms], rfl⟩
    | cons op ops ih =>
      intro hops ended env h
      have ih := ih (fun op hop => hops op (List.mem_cons_of_mem _ hop))
      have hop := hops op List.mem_cons_self
      cases op with
      | reset n =>
        obtain ⟨env', s, o, h1, h2, h3, h4⟩ := reset_conforms hm ha hne hstart hr hseed h n
        obtain ⟨i1, i2⟩ := ih false env' h3
        simp only [run, Core.apply, h1, List.foldl_cons, Conforms]
        rw [h4] at i2
        exact ⟨⟨⟨s, o, rfl, h2⟩, i1⟩, i2⟩
      | step a =>
        cases ended with
        | true =>
          obtain ⟨i1, i2⟩ := ih true env h
          have e : env.step (comps c w m idx) a = (env, .rejected) := by
            unfold Env.step
            rw [h.flag]
            rfl
          simp only [run, Core.apply, e, List.foldl_cons, Conforms]
          exact ⟨⟨trivial, i1⟩, i2⟩
        | false =>
          obtain ⟨env', r, h1, h2, h3, h4⟩ := step_conforms hc hm ha hr w3 h a hop
          obtain ⟨i1, i2⟩ := ih r.terminated env' h3
          simp only [run, Core.apply, h1, List.foldl_cons, Conforms]
          rw [h4] at i2
          exact ⟨⟨r, rfl, h2, i1⟩, i2⟩
      | setRef f => exact hop.elim
      | setReward f => exact hop.elim
      | close =>
        have h' : Idle c conv shape space fresh ready ended (env.fire (comps c w m idx) .close) :=
          ⟨by rw [fire_terminated]; exact h.flag, by rw [fire_comp]; exact h.form, by rw [fire_comp]; exact h.unused,
            by rw [fire_comp]; exact h.running⟩
        obtain ⟨i1, i2⟩ := ih ended _ h'
        rw [fire_comp] at i2
        simp only [run, Core.apply, List.foldl_cons]
        refine ⟨?_, i2⟩
        cases ended <;> simpa only [Conforms] using i1
  have h0 : Idle c conv shape space fresh ready true (Env.init (comps c w m idx) x) := by
    refine ⟨by unfold Env.init; rw [fire_terminated], ?_, ?_, by simp⟩
    · unfold Env.init; rw [fire_comp]; exact hx
    · unfold Env.init; rw [fire_comp]; exact hf
  obtain ⟨k1, k2⟩ := key ops hops true _ h0
  refine ⟨k1, ?_⟩
  have hk' : (Env.init (comps c w m idx) x).comp.sys.k = 0 := by
    unfold Env.init
    rw [fire_comp, hk]
  rw [k2, hk', stepsSinceReset]
  congr 1
  funext n h
  obtain ⟨op, out⟩ := h
  cases op <;> cases out <;> try rfl
  rename_i r
  cases r <;> rfl

end environment

/-! ## The reference generators -/

section references

open GEM.Refs

variable {H : Type}

/-- usable after a reset -/
def Untouched (g : RefGen τ ℝ) (low high : List ℝ) (t : τ) : Prop := ∃ fresh ready, Provides g low high fresh ready ∧ fresh t
/-- usable now -/
def Usable (g : RefGen τ ℝ) (low high : List ℝ) (t : τ) : Prop := ∃ fresh ready, Provides g low high fresh ready ∧ ready t

theorem provides_all (g : RefGen τ ℝ) (low high : List ℝ) : Provides g low high (Untouched g low high) (Usable g low high) where
  reset t s init := by
    rintro ⟨fr, rd, h, ht⟩ hi
    obtain ⟨t', r, o, h1, h2, h3, h4⟩ := h.reset t s init ht hi
    exact ⟨t', r, o, h1, h2, h3, fr, rd, h, h4⟩
  getRef t s := by
    rintro ⟨fr, rd, h, ht⟩
    obtain ⟨t', r, h1, h2, h3⟩ := h.getRef t s ht
    exact ⟨t', r, h1, h2, fr, rd, h, h3⟩
  getObs t s := by
    rintro ⟨fr, rd, h, ht⟩
    obtain ⟨t', r, h1, h2, h3⟩ := h.getObs t s ht
    exact ⟨t', r, h1, h2, fr, rd, h, h3⟩
  fresh t := by
    rintro ⟨fr, rd, h, ht⟩
    exact ⟨fr, rd, h, h.fresh t ht⟩

/-- entry by entry -/
theorem within_iff {low high r : List ℝ} (hl : high.length = low.length) (hr : r.length = low.length) :
    Within low high r ↔ ∀ i < low.length, entry low i ≤ entry r i ∧ entry r i ≤ entry high i := by
  have e : ∀ {a : List ℝ} {i : ℕ} (h : i < a.length), entry a i = a[i] := fun h => by simp [entry, h]
  constructor
  · intro h i hi
    have h1 := (List.forall₂_iff_get.1 h.1).2 i hi (by omega)
    have h2 := (List.forall₂_iff_get.1 h.2).2 i (by omega) (by omega)
    rw [e hi, e (by omega), e (by omega)]
    exact ⟨h1, h2⟩
  · intro h
    refine ⟨List.forall₂_iff_get.2 ⟨hr.symm, fun i h1 h2 => ?_⟩, List.forall₂_iff_get.2 ⟨by omega, fun i h1 h2 => ?_⟩⟩
    · have := (h i h1).1
      rwa [e h1, e h2] at this
    · have := (h i (by omega)).2
      rwa [e h1, e h2] at this

/-- The values of the present sub-episode are inside the margin. -/
def SubFresh (c : SubCfg H ℝ) (t : SubSt H ℝ) : Prop := t.margin = (c.low, c.high) ∧ StInside t

/-- ... and it has a value and a sub-episode -/
def SubReady (c : SubCfg H ℝ) (t : SubSt H ℝ) : Prop :=
  t.margin = (c.low, c.high) ∧ StInside t ∧ (∃ m g v i j, At c m g v i j t) ∧ c.low ≤ t.value ∧ t.value ≤ c.high

theorem sub_provides {R : Rng H} (hR : RngOk R) (k : Kind) (hk : k.regular) (ℓ : Range) (hp : ℓ.plain) (h1 : 1 ≤ ℓ.least)
    (c : SubCfg H ℝ) (hc : c.make = k.make R) (hd : c.drawLen = lenDraw R ℓ) (low high : List ℝ) (hh : high.length = low.length)
    (hmask : c.mask.length = low.length) (ht : true ∈ c.mask) (hle : c.low ≤ c.high)
    (hb : ∀ i < low.length, if c.mask[i]? = some true then entry low i ≤ c.low ∧ c.high ≤ entry high i
      else entry low i ≤ 0 ∧ 0 ≤ entry high i) :
    Provides (subGen c) low high (SubFresh c) (SubReady c) := by
  have hst := (c42_steady hR k hk ℓ hp h1 c hc hd).1
  have hbd := kind_bounded R k c hc
  refine ⟨?_, ?_, ?_, ?_⟩
  · intro t s init ⟨hm, hi⟩ hx
    obtain ⟨v, hv⟩ : ∃ v, startValue c t init v := by
      cases init with
      | none =>
        cases hi : c.initial with
        | none => exact ⟨0, by simp [startValue, hi]⟩
        | some d => exact ⟨(d t.gen).2, by simp [startValue, hi]⟩
      | some x =>
        have key : ∀ (m : List Bool) (x : List ℝ), true ∈ m → x.length = m.length → ∃ v, pick m x = .ok v := by
          intro m
          induction m with
          | nil => simp
          | cons b m ih =>
            intro x h1 h2
            cases x with
            | nil => simp at h2
            | cons y x =>
              cases b with
              | true => exact ⟨y, rfl⟩
              | false => simpa [pick] using ih x (by simpa using h1) (by simpa using h2)
        exact key _ x ht (by rw [hx x rfl, hmask])
    obtain ⟨t', e1, e2⟩ := reset_at c hst ht t s init v hv
    have e1' : subReset c t init = (t', .ok (place c.mask v, [t'.value])) := e1
    obtain ⟨i1, i2, i3⟩ := subReset_inside hbd (by rw [hm]; exact hle) hi init
    rw [e1'] at i1 i2 i3
    have hin := i3 _ _ rfl
    rw [hm] at hin
    have hin := hin t'.value (by simp)
    refine ⟨t', _, _, e1, by simp [place, hmask], ⟨.cons hin.1 .nil, .cons hin.2 .nil⟩, i2.trans hm, i1,
      ⟨_, _, _, _, _, e2⟩, hin⟩
  · intro t s h
    refine ⟨t, _, rfl, ?_, h⟩
    rw [within_iff hh (by simp [place, hmask])]
    intro i hi
    have hi' : i < c.mask.length := by omega
    have e : entry (place c.mask t.value) i = if c.mask[i] then t.value else 0 := by simp [entry, place, hi']
    have := hb i hi
    rw [List.getElem?_eq_getElem hi'] at this
    rw [e]
    obtain ⟨-, -, -, v1, v2⟩ := h
    cases hm : c.mask[i]
    · simpa [hm] using this
    · simp only [hm, if_true] at this ⊢
      exact ⟨this.1.trans v1, v2.trans this.2⟩
  · intro t s ⟨hm, hi, ⟨m, g, v, i, j, hat⟩, hv⟩
    obtain ⟨t', j', e1, e2, -⟩ := next_obs hst hat
    obtain ⟨i1, i2, i3⟩ := subObs_inside hbd (by rw [hm]; exact hle) hi
    rw [e1] at i1 i2 i3
    have hin := i3 _ rfl
    rw [hm] at hin
    have hin := hin t'.value (by simp)
    exact ⟨t', _, e1, ⟨.cons hin.1 .nil, .cons hin.2 .nil⟩, i2.trans hm, i1, ⟨_, _, _, _, _, e2⟩, hin⟩
  · intro t h
    exact ⟨h.1, h.2.1⟩

/-- C114 (sub-episoded generators): every generator of the package, with sub-episodes of at least one step and a margin inside the
bounds of the referenced state, provides references; a generator that has not been used yet (`reference = none`) is fresh, and remains so when it is
seeded. -/
theorem c114_references {R : Rng H} (hR : RngOk R) (k : Kind) (hk : k.regular) (ℓ : Range) (hp : ℓ.plain) (h1 : 1 ≤ ℓ.least)
    (c : SubCfg H ℝ) (hc : c.make = k.make R) (hd : c.drawLen = lenDraw R ℓ) (low high : List ℝ) (hh : high.length = low.length)
    (hmask : c.mask.length = low.length) (ht : true ∈ c.mask) (hle : c.low ≤ c.high)
    (hb : ∀ i < low.length, if c.mask[i]? = some true then entry low i ≤ c.low ∧ c.high ≤ entry high i
      else entry low i ≤ 0 ∧ 0 ≤ entry high i) :
    ∃ fresh ready, Provides (subGen c) low high fresh ready ∧
      (∀ t, t.reference = none → t.margin = (c.low, c.high) → fresh t) ∧
      ∀ t t', fresh t → t'.reference = t.reference → t'.margin = t.margin → fresh t' := by
  exact ⟨SubFresh c, SubReady c, sub_provides hR k hk ℓ hp h1 c hc hd low high hh hmask ht hle hb,
    fun t h1 h2 => ⟨h2, fun l hl => by rw [h1] at hl; simp at hl⟩,
    fun t t' h e1 e2 => ⟨e2.trans h.1, fun l hl x hx => by rw [e1] at hl; rw [e2]; exact h.2 l hl x hx⟩⟩

/-- C114 (constant references). -/
theorem c114_constant (name : String) (mask : List Bool) (x : ℝ) (low high : List ℝ) (hh : high.length = low.length)
    (hmask : mask.length = low.length)
    (hb : ∀ i < low.length, if mask[i]? = some true then entry low i ≤ x ∧ x ≤ entry high i else entry low i ≤ 0 ∧ 0 ≤ entry high i) :
    Provides (constGen name mask x) low high (fun _ => True) (fun _ => True) := by
  have hw : Within low high (place mask x) := by
    rw [within_iff hh (by simp [place, hmask])]
    intro i hi
    have hi' : i < mask.length := by omega
    have e : entry (place mask x) i = if mask[i] then x else 0 := by simp [entry, place, hi']
    have := hb i hi
    rw [List.getElem?_eq_getElem hi'] at this
    rw [e]
    cases hm : mask[i]
    · simpa [hm] using this
    · simpa [hm] using this
  have ho : Within [x] [x] [x] := ⟨.cons le_rfl .nil, .cons le_rfl .nil⟩
  refine ⟨fun t s init _ _ => ⟨(), place mask x, [x], rfl, by simp [place, hmask], ho, trivial⟩,
    fun t s _ => ⟨(), place mask x, rfl, hw, trivial⟩, fun t s _ => ⟨(), [x], rfl, ho, trivial⟩, fun _ _ => trivial⟩

/-- C114 (no references). -/
theorem c114_zero (low high : List ℝ) (hh : high.length = low.length) (hb : ∀ i < low.length, entry low i ≤ 0 ∧ 0 ≤ entry high i) :
    Provides (zeroGen low.length) low high (fun _ => True) (fun _ => True) := by
  have hw : Within low high (List.replicate low.length 0) := by
    rw [within_iff hh (by simp)]
    intro i hi
    have e : entry (List.replicate low.length 0) i = 0 := by simp [entry, hi]
    rw [e]
    exact hb i hi
  have ho : Within ([] : List ℝ) [] [] := ⟨.nil, .nil⟩
  exact ⟨fun t s init _ _ => ⟨(), _, [], rfl, by simp, ho, trivial⟩, fun t s _ => ⟨(), _, rfl, hw, trivial⟩,
    fun t s _ => ⟨(), [], rfl, ho, trivial⟩, fun _ _ => trivial⟩

theorem each_forall {α : Type} {m : RefGen τ ℝ → τ → Call τ α} {P Q : RefGen τ ℝ → τ → Prop} {V : RefGen τ ℝ → α → Prop}
    (h : ∀ g t, P g t → ∃ t' a, m g t = (t', .ok a) ∧ Q g t' ∧ V g a) {gs : List (RefGen τ ℝ)} {ts : List τ}
    (hp : List.Forall₂ P gs ts) : ∃ ts' l, each m gs ts = (ts', .ok l) ∧ List.Forall₂ Q gs ts' ∧ List.Forall₂ V gs l := by
  induction hp with
  | nil => exact ⟨[], [], rfl, .nil, .nil⟩
  | @cons g t gs ts hg _ ih =>
    obtain ⟨t', a, h1, h2, h3⟩ := h g t hg
    obtain ⟨ts', l, h4, h5, h6⟩ := ih
    exact ⟨t' :: ts', a :: l, by simp only [each, h1, h4]; rfl, .cons h2 h5, .cons h3 h6⟩

theorem within_flatten {gs : List (RefGen τ ℝ)} {l : List (List ℝ)} (h : List.Forall₂ (fun g o => Within g.low g.high o) gs l) :
    Within (gs.flatMap (·.low)) (gs.flatMap (·.high)) l.flatten := by
  induction h with
  | nil => exact ⟨.nil, .nil⟩
  | cons h _ ih =>
    simp only [List.flatMap_cons, List.flatten_cons]
    exact ⟨List.rel_append h.1 ih.1, List.rel_append h.2 ih.2⟩

theorem multiple_provides (F Q : RefGen τ ℝ → τ → Prop) {gs : List (RefGen τ ℝ)} {M : RefGen (List τ) ℝ} (low high : List ℝ)
    (hp : ∀ g, Provides g low high (F g) (Q g)) (hh : high.length = low.length)
    (hM : multiGen low.length gs = .ok M) (hon : ∀ g ∈ gs, Honest low.length g)
    (hb : ∀ i < low.length, entry low i ≤ 0 ∧ 0 ≤ entry high i) :
    Provides M low high (List.Forall₂ F gs) (List.Forall₂ Q gs) := by
  have hM' := hM
  obtain ⟨hne, hcount, rfl⟩ := multiGen_ok hM
  refine ⟨?_, ?_, ?_, ?_⟩
  · intro ts s init hts hi
    obtain ⟨ts', l, h1, h2, h3⟩ := each_forall (m := fun g t => g.reset t s init) (P := F)
      (Q := Q) (V := fun g a => a.1.length = low.length ∧ Within g.low g.high a.2)
      (fun g t hg => by
        obtain ⟨t', r, o, q1, q2, q3, q4⟩ := (hp g).reset t s init hg hi
        exact ⟨t', (r, o), q1, q4, q2, q3⟩) hts
    have hlen : ∀ b ∈ l.map Prod.fst, b.length = low.length := by
      intro b hb
      obtain ⟨a, ha, rfl⟩ := List.mem_map.1 hb
      obtain ⟨j, hj⟩ := List.getElem?_of_mem ha
      obtain ⟨hjl, rfl⟩ := List.getElem?_eq_some_iff.1 hj
      have hjg : j < gs.length := by rw [h3.length_eq]; exact hjl
      exact ((List.forall₂_iff_get.1 h3).2 j hjg hjl).1
    obtain ⟨r, e1, e2, -⟩ := foldlM_addArr low.length (l.map Prod.fst) (List.replicate low.length (0 : ℝ)) (by simp) hlen
    refine ⟨ts', r, (l.map Prod.snd).flatten, ?_, e2, ?_, h2⟩
    · simp only [multiReset, h1, Except.bind, e1, Except.map]
    · apply within_flatten
      rw [List.forall₂_map_right_iff]
      exact h3.imp fun g a h => h.2
  · intro ts s hts
    obtain ⟨ts', l, h1, h2, h3⟩ := each_forall (m := fun g t => g.getRef t s) (P := Q)
      (Q := Q) (V := fun _ a => Within low high a)
      (fun g t hg => by
        obtain ⟨t', r, q1, q2, q3⟩ := (hp g).getRef t s hg
        exact ⟨t', r, q1, q3, q2⟩) hts
    have hst : ts.length = gs.length := hts.length_eq.symm
    obtain ⟨r, e1, e2, -⟩ := multiRef_ok hne hon hst (l := l) (by rw [h1])
    have hr : multiRef gs ts s = (ts', .ok r) := Prod.ext (by simp only [multiRef, h1]) e1
    refine ⟨ts', r, hr, ?_, h2⟩
    obtain ⟨-, c2, c3⟩ := c43_superposition hM' hon ts hst s r (by simp only [hr])
    rw [within_iff hh e2]
    intro i hi
    by_cases hall : ∀ g ∈ gs, g.referenced[i]? = some false
    · have := c3 i hi hall
      have e : entry r i = 0 := by simp [entry, List.getD_eq_getElem?_getD, this]
      rw [e]
      exact hb i hi
    · push Not at hall
      obtain ⟨g, hg, hgi⟩ := hall
      obtain ⟨j, hj⟩ := List.getElem?_of_mem hg
      obtain ⟨hjl, rfl⟩ := List.getElem?_eq_some_iff.1 hj
      have hjt : j < ts.length := by omega
      obtain ⟨-, v, hv1, hv2⟩ := c2 j gs[j] ts[j] hj (List.getElem?_eq_getElem hjt)
      have htrue : gs[j].referenced[i]? = some true := by
        have hlen := (hon _ hg).1
        have : i < gs[j].referenced.length := by omega
        rw [List.getElem?_eq_getElem this] at hgi ⊢
        cases hb : gs[j].referenced[i] with
        | true => rfl
        | false => rw [hb] at hgi; exact absurd rfl hgi
      have e : entry r i = entry v i := by simp only [entry, List.getD_eq_getElem?_getD, hv2 i hi htrue]
      have hrd := (List.forall₂_iff_get.1 hts).2 j hjl hjt
      obtain ⟨t', v', q1, q2, -⟩ := (hp gs[j]).getRef ts[j] s hrd
      rw [q1, Except.ok.injEq] at hv1
      subst hv1
      rw [e]
      exact (within_iff hh q2.1.length_eq.symm).1 q2 i hi
  · intro ts s hts
    obtain ⟨ts', l, h1, h2, h3⟩ := each_forall (m := fun g t => g.getObs t s) (P := Q)
      (Q := Q) (V := fun g a => Within g.low g.high a)
      (fun g t hg => by
        obtain ⟨t', r, q1, q2, q3⟩ := (hp g).getObs t s hg
        exact ⟨t', r, q1, q3, q2⟩) hts
    have hl : l ≠ [] := by
      rintro rfl
      exact hne (List.length_eq_zero_iff.1 (by simpa using h3.length_eq))
    exact ⟨ts', l.flatten, by simp only [multiObs, h1, Except.bind, if_neg hl], within_flatten h3, h2⟩
  · intro ts hts
    exact hts.imp fun g t h => (hp g).fresh t h

/-- C114 (several references): a combination of generators that provide references for the same state space provides references, if all
of them are fresh, each of them. -/
theorem c114_multiple {gs : List (RefGen τ ℝ)} {M : RefGen (List τ) ℝ} (low high : List ℝ) (hh : high.length = low.length)
    (hM : multiGen low.length gs = .ok M) (hon : ∀ g ∈ gs, Honest low.length g)
    (hb : ∀ i < low.length, entry low i ≤ 0 ∧ 0 ≤ entry high i) :
    Provides M low high (List.Forall₂ (fun g => Untouched g low high) gs) (List.Forall₂ (fun g => Usable g low high) gs) :=
  multiple_provides _ _ low high (fun g => provides_all g low high) hh hM hon hb

theorem onCurrent_ok {α : Type} {c : SwCfg H τ ℝ} {st : SwSt H τ ℝ} {m : RefGen τ ℝ → τ → Call τ α} {g : RefGen τ ℝ} {u u' : τ} {a : α}
    (h1 : c.gens[st.cur]? = some g) (h2 : st.subs[st.cur]? = some u) (h3 : m g u = (u', .ok a)) :
    onCurrent c st m = ({ st with subs := st.subs.set st.cur u' }, .ok a) := by
  simp only [onCurrent, h1, h2, h3]

/-- C114 (switched references): a switched generator whose sub-generators all provide references for the same state space provides
references. -/
theorem c114_switched {c : SwCfg H τ ℝ} {M : RefGen (SwSt H τ ℝ) ℝ} (hM : switchedGen c = .ok M) (low high : List ℝ)
    (hch : ∀ g, (c.choice g).2 < c.gens.length) :
    ∃ fresh ready, Provides M low high fresh ready ∧ ∀ t : SwSt H τ ℝ, t.reference = none →
      List.Forall₂ (fun g => Untouched g low high) c.gens t.subs → fresh t := by
  have hspace : ∀ g ∈ c.gens, ∀ o, Within g.low g.high o → Within M.low M.high o := fun g hg o h => c44_space hM g hg o h
  obtain ⟨g0, gs, hgs, -, rfl⟩ := switchedGen_ok hM
  have hset : ∀ (ts : List τ) (j : ℕ) (g : RefGen τ ℝ) (t : τ), List.Forall₂ (fun g => Untouched g low high) c.gens ts →
      c.gens[j]? = some g → Untouched g low high t → List.Forall₂ (fun g => Untouched g low high) c.gens (ts.set j t) := by
    intro ts j g t h hg ht
    refine List.forall₂_iff_get.2 ⟨by simpa using h.length_eq, fun i h1 h2 => ?_⟩
    simp only [List.get_eq_getElem, List.getElem_set]
    split
    · rename_i e
      subst e
      rw [List.getElem?_eq_getElem h1, Option.some.injEq] at hg
      rw [hg]
      exact ht
    · exact (List.forall₂_iff_get.1 h).2 i h1 (by simpa using h2)
  have hcur : ∀ (ts : List τ) (j : ℕ), List.Forall₂ (fun g => Untouched g low high) c.gens ts → j < c.gens.length →
      ∃ g t, c.gens[j]? = some g ∧ ts[j]? = some t ∧ g ∈ c.gens ∧ Untouched g low high t ∧ j < ts.length := by
    intro ts j h hj
    have hj' : j < ts.length := by rw [← h.length_eq]; exact hj
    exact ⟨c.gens[j], ts[j], List.getElem?_eq_getElem hj, List.getElem?_eq_getElem hj', List.getElem_mem hj,
      (List.forall₂_iff_get.1 h).2 j hj hj', hj'⟩
  refine ⟨fun t => List.Forall₂ (fun g => Untouched g low high) c.gens t.subs ∧ ∀ x, t.reference = some x → x.length = low.length,
    fun t => (List.Forall₂ (fun g => Untouched g low high) c.gens t.subs ∧ ∀ x, t.reference = some x → x.length = low.length) ∧
      ∃ g u, c.gens[t.cur]? = some g ∧ t.subs[t.cur]? = some u ∧ Usable g low high u, ⟨?_, ?_, ?_, fun t h => h.1⟩,
    fun t h1 h2 => ⟨h2, by simp [h1]⟩⟩
  · intro t s init ⟨h1, h2⟩ hi
    obtain ⟨g, u, e1, e2, e3, e4, e5⟩ := hcur t.subs _ h1 (hch (c.integers (c.spawn t.spawned)).1)
    obtain ⟨u', r, o, q1, q2, q3, q4⟩ := (provides_all g low high).reset u s init e4 hi
    have hon := onCurrent_ok (c := c) (st := swNew c { t with gen := c.spawn t.spawned, spawned := t.spawned + 1 })
      (m := fun g t => g.reset t s init) e1 e2 q1
    refine ⟨_, r, o, hon, q2, hspace g e3 o q3, ⟨?_, h2⟩, g, u', e1, ?_, q4⟩
    · exact hset _ _ g u' h1 e1 ((provides_all g low high).fresh _ q4)
    · exact List.getElem?_set_self e5
  · intro t s ⟨⟨h1, h2⟩, g, u, e1, e2, e3⟩
    obtain ⟨u', r, q1, q2, q3⟩ := (provides_all g low high).getRef u s e3
    have e5 : t.cur < t.subs.length := (List.getElem?_eq_some_iff.1 e2).1
    have hon := onCurrent_ok (c := c) (st := t) (m := fun g t => g.getRef t s) e1 e2 q1
    have hr : swRef c t s = ({ t with subs := t.subs.set t.cur u', reference := some r }, .ok r) := by
      simp only [swRef, hon, Call.bind]
    refine ⟨_, r, hr, q2, ⟨?_, ?_⟩, g, u', e1, ?_, q3⟩
    · exact hset _ _ g u' h1 e1 ((provides_all g low high).fresh _ q3)
    · intro x hx
      simp only [Option.some.injEq] at hx
      subst hx
      exact q2.1.length_eq.symm
    · exact List.getElem?_set_self e5
  · intro t s ⟨⟨h1, h2⟩, g, u, e1, e2, e3⟩
    by_cases hk : t.len ≤ t.k
    · obtain ⟨g', w, f1, f2, f3, f4, f5⟩ := hcur t.subs _ h1 (hch (c.integers t.gen).1)
      obtain ⟨w', r, o, q1, q2, q3, q4⟩ := (provides_all g' low high).reset w s t.reference f4 h2
      have hon := onCurrent_ok (c := c) (st := swNew c t) (m := fun g x => g.reset x s t.reference) f1 f2 q1
      have hr : swObs c t s = ({ swNew c t with subs := t.subs.set (swNew c t).cur w', k := (swNew c t).k + 1 }, .ok o) := by
        simp only [swObs, if_pos hk, hon, Call.bind]
        rfl
      refine ⟨_, o, hr, hspace g' f3 o q3, ⟨?_, h2⟩, g', w', f1, ?_, q4⟩
      · exact hset _ _ g' w' h1 f1 ((provides_all g' low high).fresh _ q4)
      · exact List.getElem?_set_self f5
    · obtain ⟨u', o, q1, q2, q3⟩ := (provides_all g low high).getObs u s e3
      have e5 : t.cur < t.subs.length := (List.getElem?_eq_some_iff.1 e2).1
      have hon := onCurrent_ok (c := c) (st := t) (m := fun g t => g.getObs t s) e1 e2 q1
      have hr : swObs c t s = ({ t with subs := t.subs.set t.cur u', k := t.k + 1 }, .ok o) := by
        simp only [swObs, if_neg hk, hon, Call.bind]
      refine ⟨_, o, hr, hspace g (List.mem_of_getElem? e1) o q2, ⟨?_, h2⟩, g, u', e1, ?_, q3⟩
      · exact hset _ _ g u' h1 e1 ((provides_all g low high).fresh _ q3)
      · exact List.getElem?_set_self e5

end references

/-! ## Construction -/

theorem mapM_index_iff (names l : List String) : (∃ r, l.mapM (indexOf names) = .ok r) ↔ ∀ n ∈ l, n ∈ names :=
  ⟨fun ⟨r, hr⟩ => (mapM_index names l r hr).2, fun h => ⟨_, mapM_index_ok names l h⟩⟩

theorem mapM_squared_ok (names : List String) (high limits : List ℝ) (l : List (List String)) :
    (∃ r, l.mapM (squaredModules names high limits) = .ok r) ↔ ∀ g ∈ l, ∀ n ∈ g, n ∈ names := by
  constructor
  · rintro ⟨r, hr⟩ g hg
    have h := mapM_ok hr
    obtain ⟨j, hj⟩ := List.getElem?_of_mem hg
    obtain ⟨hjl, rfl⟩ := List.getElem?_eq_some_iff.1 hj
    have := (List.forall₂_iff_get.1 h).2 j hjl (by rw [← h.length_eq]; exact hjl)
    simp only [List.get_eq_getElem, squaredModules] at this
    split at this
    · assumption
    · simp at this
  · intro h
    induction l with
    | nil => exact ⟨[], rfl⟩
    | cons a l ih =>
      obtain ⟨r, hr⟩ := ih fun n hn => h n (List.mem_cons_of_mem _ hn)
      have ha := h a List.mem_cons_self
      obtain ⟨q, hq⟩ : ∃ q, squaredModules names high limits a = .ok q := ⟨_, if_pos ha⟩
      exact ⟨q :: r, by rw [List.mapM_cons, hr, hq]; rfl⟩

theorem limitMask_iff (lower : String → String) (allStates : String) (names obs : List String) (hl : ∀ n ∈ names, lower n = n) :
    (∃ r, limitMask (K := ℝ) lower allStates names (some obs) = .ok r) ↔ allStates ∈ obs ∨ ∀ k ∈ obs, lower k ∈ names := by
  have key : ∀ o : List String, (∃ a, setStateArray lower names (.dict (o.map fun n => (n, (1 : ℝ)))) = .ok a) ↔ ∀ k ∈ o, lower k ∈ names := by
    intro o
    simp only [setStateArray, stateDictToStateArray, List.map_map]
    split <;> rename_i h
    · exact ⟨fun _ k hk => h (lower k, 1) (by simpa using ⟨k, hk, rfl⟩), fun _ => ⟨_, rfl⟩⟩
    · refine ⟨fun ⟨_, h⟩ => by simp at h, fun h' => absurd ?_ h⟩
      intro p hp
      obtain ⟨k, hk, rfl⟩ := List.mem_map.1 hp
      exact h' k hk
  have step : (∃ r, limitMask (K := ℝ) lower allStates names (some obs) = .ok r) ↔
      ∃ a, setStateArray lower names (.dict ((if allStates ∈ obs then names else obs).map fun n => (n, (1 : ℝ)))) = .ok a := by
    simp only [limitMask]
    split <;> rename_i h
    · exact ⟨fun _ => ⟨_, h⟩, fun _ => ⟨_, rfl⟩⟩
    · exact ⟨fun ⟨_, h⟩ => by simp at h, fun ⟨_, h'⟩ => by rw [h] at h'; simp at h'⟩
  rw [step, key]
  split <;> rename_i h
  · exact ⟨fun _ => Or.inl h, fun _ k hk => by rw [hl k hk]; exact hk⟩
  · exact ⟨Or.inr, fun h' => h'.resolve_left h⟩

/-- C114 (construction): given a reward function that accepts the modules, an environment can be constructed exactly if the
`constraints` argument and the state filter mention known states only; limited states may be written in any case. -/
theorem c114_constructed (c : Setup Y U A S C P G τ) (hl : ∀ n ∈ c.names, c.lower n = n)
    (hw : ∃ w, setModules c.lower c.wse ⟨c.names, c.low, c.high, c.gen.referenced⟩ = .ok w) :
    (∃ x, build c = .ok x) ↔ (c.allStates ∈ c.limited ∨ ∀ k ∈ c.limited, c.lower k ∈ c.names) ∧
      (∀ g ∈ c.squares, ∀ n ∈ g, n ∈ c.names) ∧ ∀ n ∈ shown c, n ∈ c.names := by
  obtain ⟨w, hw⟩ := hw
  have hb : (∃ x, build c = .ok x) ↔ ∃ x, modules c = .ok x := by
    unfold build
    cases modules c with
    | error e => simp [Except.map]
    | ok x => simp [Except.map]
  have hs : (∃ r, stateFilter c.names c.filter = .ok r) ↔ ∀ n ∈ shown c, n ∈ c.names := by
    rw [← mapM_index_iff]
    unfold stateFilter shown
    rcases c.filter with _ | _ | _ <;> rfl
  have hm : ∀ qs : List (List ℕ × List ℝ × Bool),
      (∃ m, envMonitor (K := ℝ) c.lower c.allStates c.names (c.limited.map .name ++ qs.map fun q => .constr (squaredCall q)) = .ok m) ↔
      (c.allStates ∈ c.limited ∨ ∀ k ∈ c.limited, c.lower k ∈ c.names) := by
    intro qs
    have e : limitArgs (c.limited.map Arg.name ++ qs.map fun q => Arg.constr (squaredCall q) : List (Arg String ℝ)) = c.limited := by
      simp [limitArgs, List.filterMap_append, List.filterMap_map]
    simp only [envMonitor, e]
    split <;> rename_i h
    · exact ⟨fun _ => Or.inr (by simp [h]), fun _ => ⟨_, rfl⟩⟩
    · rw [← limitMask_iff c.lower c.allStates c.names c.limited hl]
      split <;> rename_i h'
      · exact ⟨fun ⟨_, h⟩ => by simp at h, fun ⟨_, h⟩ => by rw [h'] at h; simp at h⟩
      · exact ⟨fun _ => ⟨_, h'⟩, fun _ => ⟨_, rfl⟩⟩
  rw [hb]
  constructor
  · rintro ⟨⟨w', m, idx⟩, h⟩
    obtain ⟨qs, h1, h2, -, h4⟩ := modules_ok h
    exact ⟨(hm qs).1 ⟨m, h2⟩, (mapM_squared_ok _ _ _ _).1 ⟨qs, h1⟩, hs.1 ⟨idx, h4⟩⟩
  · rintro ⟨h1, h2, h3⟩
    obtain ⟨qs, e1⟩ := (mapM_squared_ok c.names c.high c.limits c.squares).2 h2
    obtain ⟨m, e2⟩ := (hm qs).2 h1
    obtain ⟨idx, e3⟩ := hs.2 h3
    exact ⟨(w, m, idx), by simp only [modules, e1, e2, hw, e3]⟩

/-! ## An environment with its default arguments -/

/-- `Cont-CC-PermExDc-v0` with its default arguments (envs/gym_dcm/permex_dc_motor_env/cont_cc_permex_dc_env.py 92–206), for given
supply, solver and load (with the single state `omega`), converter with one output, torque function, sampling time, limits and random
generators; the bounds of the state space are those of a four quadrant converter. -/
def permEx {H : Type} (p : Sys.Parts ℝ (Sys.DcY ℝ) (List ℝ) (List ℝ) S (Conv.CConv ℝ) P) (tq : List ℝ → ℝ) (tau : ℝ) (limits : List ℝ)
    (start : G → G × Sys.DcY ℝ) (seedSystem : ℕ → G → G) (cfg : Refs.SubCfg H ℝ) (seedRef : ℕ → H × ℕ) :
    Setup (Sys.DcY ℝ) (List ℝ) (List ℝ) S (Conv.CConv ℝ) P G (Refs.SubSt H ℝ) where
  p := p
  f := Sys.dcFrame id tq [0] 1 1
  rep := Sys.dcResetReport tq [0]
  tau := tau
  limits := limits
  names := ["omega", "torque", "i", "u", "u_sup"]
  low := [-1, -1, -1, -1, 0]
  high := [1, 1, 1, 1, 1]
  start := start
  seedSystem := seedSystem
  gen := Refs.subGen cfg
  seedRef n t := { t with gen := (seedRef n).1, spawned := (seedRef n).2 }
  lower := id
  allStates := "all_states"
  wse := Wse.init (some (.dict [("i", 1)])) false none (9 / 10) (.scalar 1) (.num 0)
  limited := ["i"]
  squares := []
  filter := none
  nCb := 1

theorem permEx_modules {H : Type} {p : Sys.Parts ℝ (Sys.DcY ℝ) (List ℝ) (List ℝ) S (Conv.CConv ℝ) P} {tq : List ℝ → ℝ} {tau : ℝ}
    {limits : List ℝ} {start : G → G × Sys.DcY ℝ} {seedSystem : ℕ → G → G} {cfg : Refs.SubCfg H ℝ}
    {seedRef : ℕ → H × ℕ} :
    ∃ w m idx, modules (permEx p tq tau limits start seedSystem cfg seedRef) = .ok (w, m, idx) ∧ w.range = some (-1, 0) ∧
      w.violation = some (.fin (-10)) := by
  set c := permEx p tq tau limits start seedSystem cfg seedRef with hc
  have hw : ∃ w, setModules c.lower c.wse ⟨c.names, c.low, c.high, c.gen.referenced⟩ = .ok w ∧ w.range = some (-1, 0) ∧
      w.violation = some (.fin (-10)) := by
    simp [hc, permEx, setModules, Wse.init, setStateArray, weightArray, stateDictToStateArray, Except.map, finish, violationOf,
      defaultViolation, Bias.value, lookup]
    norm_num
  obtain ⟨w, h1, h2, h3⟩ := hw
  obtain ⟨x, hx⟩ := (c114_constructed c (fun n _ => rfl) ⟨w, h1⟩).2 (by
    simp [hc, permEx, shown])
  unfold build at hx
  cases hm : modules c with
  | error e => simp [hm, Except.map] at hx
  | ok y =>
    obtain ⟨w', m, idx⟩ := y
    obtain ⟨-, -, -, h4, -⟩ := modules_ok hm
    rw [h1, Except.ok.injEq] at h4
    subst h4
    exact ⟨w, m, idx, rfl, h2, h3⟩

/-- C114 (an environment): `Cont-CC-PermExDc-v0` with its default arguments, every converter with one output, every solver, load with
one state and supply with one voltage.  It can be constructed.  In every history of resets and steps with actions of the action space
the resets and the steps of running episodes answer, the episode ends exactly if the current is beyond its limit, the reward is then
-10, and otherwise between -1 and 0 while the state is inside the state space. -/
theorem c114_permex {H : Type} {R : Refs.Rng H} (hR : Refs.RngOk R)
    (p : Sys.Parts ℝ (Sys.DcY ℝ) (List ℝ) (List ℝ) S (Conv.CConv ℝ) P) (kind : ConvKind) (hkind : kind.dim = 1)
    (hu : Uses p contPower) (hp : Shaped p (DcShape 1 1)) (tq : List ℝ → ℝ) (tau : ℝ) (limits : List ℝ) (hl : limits.length = 5)
    (start : G → G × Sys.DcY ℝ) (hstart : ∀ g, DcShape 1 1 (start g).2) (seedSystem : ℕ → G → G) (cfg : Refs.SubCfg H ℝ)
    (seedRef : ℕ → H × ℕ) (sigma ℓ : Refs.Range) (hk : (Kind.wiener sigma).regular) (hc : cfg.make = (Kind.wiener sigma).make R)
    (hℓ : ℓ.plain) (h1 : 1 ≤ ℓ.least) (hd : cfg.drawLen = Refs.lenDraw R ℓ) (hmask : cfg.mask = [false, false, true, false, false])
    (hlow : -1 ≤ cfg.low) (hle : cfg.low ≤ cfg.high) (hhigh : cfg.high ≤ 1) (x : World S (Conv.CConv ℝ) P G (Refs.SubSt H ℝ))
    (hx : IsC kind x.sys.conv) (hf : x.ref.reference = none) (hm : x.ref.margin = (cfg.low, cfg.high)) (hk0 : x.sys.k = 0) :
    ∃ m, build (permEx p tq tau limits start seedSystem cfg seedRef) = .ok m ∧
      ∀ ops : List (Op (World S (Conv.CConv ℝ) P G (Refs.SubSt H ℝ)) (List ℝ)), (∀ op ∈ ops, Proper (fun a => a.length = 1) op) →
        Conforms (permEx p tq tau limits start seedSystem cfg seedRef) (-1) 0 (-10) true (run m (Env.init m x) ops).2 := by
  obtain ⟨w, m, idx, e1, e2, e3⟩ := permEx_modules (p := p) (tq := tq) (tau := tau) (limits := limits) (start := start)
    (seedSystem := seedSystem) (cfg := cfg) (seedRef := seedRef)
  refine ⟨comps (permEx p tq tau limits start seedSystem cfg seedRef) w m idx, by simp only [build, e1, Except.map], fun ops hops => ?_⟩
  have hb : ∀ i < 5, if cfg.mask[i]? = some true then entry [-1, -1, -1, -1, 0] i ≤ cfg.low ∧ cfg.high ≤ entry [1, 1, 1, 1, 1] i
      else entry [-1, -1, -1, -1, 0] i ≤ 0 ∧ 0 ≤ entry [1, 1, 1, 1, 1] i := by
    intro i hi
    rw [hmask]
    interval_cases i <;> simp [entry, hlow, hhigh]
  obtain ⟨fresh, ready, g1, g2, g3⟩ := c114_references hR (.wiener sigma) hk ℓ hℓ h1 cfg hc hd [-1, -1, -1, -1, 0] [1, 1, 1, 1, 1] rfl
    (by rw [hmask]; rfl) (by rw [hmask]; simp) hle hb
  have ha : AcceptsAll p (Sys.dcFrame id tq [0] 1 1) (Sys.dcResetReport tq [0]) tau limits 5 (IsC kind) (DcShape 1 1)
      (fun a => a.length = 1) := c109_dc.2.2.2.1 kind hkind p ["omega"] hu hp tq tau limits (by rw [hl]; rfl)
  have hcoh : Coherent (permEx p tq tau limits start seedSystem cfg seedRef) := by
    refine ⟨⟨rfl, rfl, ?_, ?_⟩, by simp [permEx], fun _ _ => rfl, by simp [permEx], some (.dict [("i", 1)]), false, none, 9 / 10, .scalar 1,
      .num 0, rfl, ?_, ?_, by norm_num, by simp⟩
    · show cfg.mask.length = 5
      rw [hmask]
      rfl
    · intro i hi
      have hi : i < 5 := hi
      show entry [-1, -1, -1, -1, 0] i < entry [1, 1, 1, 1, 1] i
      interval_cases i <;> norm_num [entry]
    · intro a ha
      simp at ha
      subst ha
      simp [Nonneg]
    · simp [Nonneg]
  obtain ⟨lo, hi, v, f1, f2, f3, -⟩ := c114_environment_partial hcoh e1 ha ⟨[0], rfl⟩ hstart g1 (fun n t ht => g3 t _ ht rfl rfl) x hx
    (g2 _ hf hm) hk0 ops hops
  rw [e2] at f1
  rw [e3] at f2
  simp only [Option.some.injEq, Prod.mk.injEq, Fl.fin.injEq] at f1 f2
  obtain ⟨rfl, rfl⟩ := f1
  subst f2
  exact f3

/-! ## Rewards outside the announced range -/

/-- a drive that is accelerated by its current: an Euler step -/
def fastParts : Sys.Parts ℝ (Sys.DcY ℝ) (List ℝ) (List ℝ) (Sys.DcY ℝ × ℝ) (Conv.CConv ℝ) Unit where
  solverT s := s.2
  solverY s := s.1
  integrate s u t := (⟨[s.1.mech.headD 0 + (t - s.2) * s.1.motor.headD 0], [s.1.motor.headD 0 + (t - s.2) * u.headD 0]⟩, t)
  setInitial _ y t := (y, t)
  setAction := Conv.CConv.setAction
  convert c i t := (c, c.convert i t)
  iSup := Conv.CConv.iSup
  convReset := Conv.CConv.reset
  getVoltage p _ _ := (p, [60])
  supplyReset p := (p, [60])

/-- As `Cont-SC-PermExDc-v0` (cont_sc_permex_dc_env.py 92–206): the speed is referenced and rewarded, the current is limited. -/
def fastEnv : Setup (Sys.DcY ℝ) (List ℝ) (List ℝ) (Sys.DcY ℝ × ℝ) (Conv.CConv ℝ) Unit Unit Unit where
  p := fastParts
  f := Sys.dcFrame id (fun i => i.headD 0) [0] 1 1
  rep := Sys.dcResetReport (fun i => i.headD 0) [0]
  tau := 1
  limits := [1, 10, 10, 60, 60]
  names := ["omega", "torque", "i", "u", "u_sup"]
  low := [-1, -1, -1, -1, 0]
  high := [1, 1, 1, 1, 1]
  start g := (g, ⟨[0], [2]⟩)
  seedSystem _ g := g
  gen := Refs.constGen "omega" [true, false, false, false, false] (-1)
  seedRef _ t := t
  lower := id
  allStates := "all_states"
  wse := Wse.init (some (.dict [("omega", 1)])) false none (9 / 10) (.scalar 1) (.num 0)
  limited := ["i"]
  squares := []
  filter := none
  nCb := 1

theorem fast_coherent : Coherent fastEnv := by
  refine ⟨⟨rfl, rfl, rfl, ?_⟩, by simp [fastEnv], fun _ _ => rfl, by simp [fastEnv], some (.dict [("omega", 1)]), false, none, 9 / 10,
    .scalar 1, .num 0, rfl, ?_, ?_, by norm_num, by simp⟩
  · intro i hi
    have hi : i < 5 := hi
    show entry [-1, -1, -1, -1, 0] i < entry [1, 1, 1, 1, 1] i
    interval_cases i <;> norm_num [entry]
  · intro a ha
    simp at ha
    subst ha
    simp [Nonneg]
  · simp [Nonneg]

theorem fast_modules : ∃ w m idx, modules fastEnv = .ok (w, m, idx) ∧ w.range = some (-1, 0) ∧
    number (Reward.reward w [2, 1 / 5, 1 / 5, 0, 1] [-1, 0, 0, 0, 0] 0) = .ok (-(3 / 2)) := by
  have hw : ∃ w, setModules fastEnv.lower fastEnv.wse ⟨fastEnv.names, fastEnv.low, fastEnv.high, fastEnv.gen.referenced⟩ = .ok w ∧
      w.range = some (-1, 0) ∧ number (Reward.reward w [2, 1 / 5, 1 / 5, 0, 1] [-1, 0, 0, 0, 0] 0) = .ok (-(3 / 2)) := by
    simp [fastEnv, Refs.constGen, setModules, Wse.init, setStateArray, weightArray, stateDictToStateArray, Except.map, finish,
      violationOf, defaultViolation, Bias.value, lookup]
    norm_num [Reward.reward, wse, number, mix, terms, term]
  obtain ⟨w, h1, h2, h3⟩ := hw
  obtain ⟨x, hx⟩ := (c114_constructed fastEnv (fun n _ => rfl) ⟨w, h1⟩).2 (by simp [fastEnv, shown])
  unfold build at hx
  cases hm : modules fastEnv with
  | error e => simp [hm, Except.map] at hx
  | ok y =>
    obtain ⟨w', m, idx⟩ := y
    obtain ⟨-, -, -, h4, -⟩ := modules_ok hm
    rw [h1, Except.ok.injEq] at h4
    subst h4
    exact ⟨w, m, idx, rfl, h2, h3⟩

/-- before the first reset -/
def fastWorld : World (Sys.DcY ℝ × ℝ) (Conv.CConv ℝ) Unit Unit Unit :=
  ⟨{ t := 0, k := 0, solver := (⟨[0], [0]⟩, 0), conv := .four (Conv.CFour.new 1 0), supply := () }, (), ()⟩

theorem fast_reset (st : Sys.St ℝ (Sys.DcY ℝ × ℝ) (Conv.CConv ℝ) Unit) (hst : st.conv = .four (Conv.CFour.new 1 0)) :
    Sys.reset fastParts fastEnv.rep fastEnv.limits st ⟨[0], [2]⟩ =
      (⟨0, 0, (⟨[0], [2]⟩, 0), .four (Conv.CFour.new 1 0), ()⟩, .ok [0, 1 / 5, 1 / 5, 0, 1]) := by
  simp only [Sys.reset, fastParts, hst, fastEnv]
  norm_num [Conv.CConv.reset, Conv.CFour.new, Conv.CTwo.new, Sys.dcResetReport, Sys.getE, Sys.products, Sys.divLimits, bind, Except.bind,
    pure, Except.pure]

theorem fast_step : ∃ st', Sys.simulate fastParts fastEnv.f fastEnv.tau fastEnv.limits
    ⟨0, 0, (⟨[0], [2]⟩, 0), .four (Conv.CFour.new 1 0), ()⟩ [0] = (st', .ok [2, 1 / 5, 1 / 5, 0, 1]) := by
  have h1 : ∃ c ts, (Conv.CConv.four (Conv.CFour.new (1 : ℝ) 0)).setAction [0] 0 = (c, .ok ts) ∧ ts.dropLast = [] ∧ c.convert [2] 0 = .ok [0] ∧
      ∃ w, c.iSup [2] = .ok w := by
    refine ⟨_, Conv.sortedSet [1, 1], Prod.ext rfl ?_, sortedSet_const (x := 1) (by simp), ?_, ?_⟩
    · simp [Conv.CConv.setAction, Conv.CFour.new, Conv.CTwo.new, Conv.CFour.setAction, Conv.CTwo.setAction]
    · simp [Conv.CConv.setAction, Conv.CConv.convert, Conv.CFour.new, Conv.CTwo.new, Conv.CFour.setAction, Conv.CFour.convert,
        Conv.CTwo.setAction, Conv.CTwo.convert]
    · simp [Conv.CConv.setAction, Conv.CConv.iSup, Conv.CFour.new, Conv.CTwo.new, Conv.CFour.setAction, Conv.CFour.iSup,
        Conv.CTwo.setAction, Conv.CTwo.iSup]
  obtain ⟨c, ts, h1, h4, h2, w, h3⟩ := h1
  refine ⟨_, Prod.ext rfl ?_⟩
  simp [Sys.simulate, fastParts, fastEnv, Sys.dcFrame, h1, h4, Call.bind, Sys.pieces, Sys.piece, h2, h3, Sys.products]
  norm_num [Sys.dcReport, Sys.getE, Sys.assign, bind, Except.bind, Sys.divLimits, pure, Except.pure]

/-- C114 (reward range): rewards of running episodes can lie outside `reward_range`.  The speed controlled environments limit the
current only; the first step after the reset reports a speed of twice the limit, the episode goes on, and the reward is -3/2, although
the announced range is [-1, 0]. -/
theorem c114_range_violated : ∃ w m idx, modules fastEnv = .ok (w, m, idx) ∧ w.range = some (-1, 0) ∧
    ∃ o r, (run (comps fastEnv w m idx) (Env.init (comps fastEnv w m idx) fastWorld) [.reset 0, .step [0]]).2
      = [(.reset 0, .resetOk o), (.step [0], .step (.done r))] ∧ r.terminated = false ∧ r.reward = -(3 / 2) := by
  obtain ⟨w, m, idx, h1, h2, h3⟩ := fast_modules
  refine ⟨w, m, idx, h1, h2, ?_⟩
  obtain ⟨st', h4⟩ := fast_step
  obtain ⟨d, d1, d2, d3⟩ := degree_of fast_coherent h1 [2, 1 / 5, 1 / 5, 0, 1] rfl
  have hd : d = 0 := by
    refine d2.resolve_right fun hd => ?_
    rcases d3.1 hd with ⟨i, n, x, e1, e2, e3, k, hk, e4⟩ | ⟨g, hg, -⟩
    · simp only [fastEnv, List.mem_singleton] at hk e1 e4
      subst hk
      simp only [id, String.reduceEq, false_or] at e4
      subst e4
      have hi : i < 5 := by simpa using (List.getElem?_eq_some_iff.1 e1).1
      interval_cases i <;> simp at e1
      simp only [List.getElem?_cons_succ, List.getElem?_cons_zero, Option.some.injEq] at e2
      subst e2
      norm_num at e3
    · simp [fastEnv] at hg
  subst hd
  set S0 : World (Sys.DcY ℝ × ℝ) (Conv.CConv ℝ) Unit Unit Unit :=
    ⟨⟨0, 0, (⟨[0], [2]⟩, 0), .four (Conv.CFour.new 1 0), ()⟩, (), ()⟩ with hS0
  have h5 := fast_reset fastWorld.sys rfl
  have e1 : (comps fastEnv w m idx).psReset ((comps fastEnv w m idx).seed 0 fastWorld) = (S0, .ok [0, 1 / 5, 1 / 5, 0, 1]) := by
    show (World.mk (Sys.reset fastParts fastEnv.rep fastEnv.limits fastWorld.sys ⟨[0], [2]⟩).1 () (),
      (Sys.reset fastParts fastEnv.rep fastEnv.limits fastWorld.sys ⟨[0], [2]⟩).2) = _
    rw [h5]
  have e2 : (comps fastEnv w m idx).refReset S0 [0, 1 / 5, 1 / 5, 0, 1] = (S0, .ok ([-1, 0, 0, 0, 0], [-1])) := by
    simp [comps, fastEnv, Refs.constGen, Refs.baseReset, Call.bind, Refs.place, hS0]
  have k1 : (comps fastEnv w m idx).simulate S0 [0] = ({ S0 with sys := st' }, .ok [2, 1 / 5, 1 / 5, 0, 1]) := by
    show (World.mk (Sys.simulate fastParts fastEnv.f fastEnv.tau fastEnv.limits S0.sys [0]).1 () (),
      (Sys.simulate fastParts fastEnv.f fastEnv.tau fastEnv.limits S0.sys [0]).2) = _
    rw [h4]
  have k2 : (comps fastEnv w m idx).getRef { S0 with sys := st' } [2, 1 / 5, 1 / 5, 0, 1]
      = ({ S0 with sys := st' }, .ok [-1, 0, 0, 0, 0]) := by
    simp [comps, fastEnv, Refs.constGen, Refs.place]
  have k3 : (comps fastEnv w m idx).check { S0 with sys := st' } [2, 1 / 5, 1 / 5, 0, 1] = ({ S0 with sys := st' }, .ok 0) := by
    simp only [comps, d1]
  have k4 : ∀ k, (comps fastEnv w m idx).reward { S0 with sys := st' } [2, 1 / 5, 1 / 5, 0, 1] [-1, 0, 0, 0, 0] k [0] 0
      = ({ S0 with sys := st' }, .ok (-(3 / 2))) := by
    intro k
    simp only [comps, h3]
  have k5 : (comps fastEnv w m idx).refObs { S0 with sys := st' } [2, 1 / 5, 1 / 5, 0, 1] = ({ S0 with sys := st' }, .ok [-1]) := by
    simp [comps, fastEnv, Refs.constGen]
  obtain ⟨env, o, q1, q2, q3⟩ : ∃ env o, (Env.init (comps fastEnv w m idx) fastWorld).reset (comps fastEnv w m idx) 0 = (env, .ok o) ∧
      env.terminated = false ∧ env.comp = S0 := by
    simp only [Env.reset, Env.init, Env.call, fire_comp, Call.bind, e1, e2]
    refine ⟨_, _, rfl, ?_, ?_⟩
    · rw [fire_terminated]
    · rw [fire_comp]
      rfl
  obtain ⟨env', r, q4, q5, q6⟩ : ∃ env' r, env.step (comps fastEnv w m idx) [0] = (env', .done r) ∧ r.terminated = false ∧
      r.reward = -(3 / 2) := by
    unfold Env.step
    rw [q2]
    simp only [Bool.false_eq_true, if_false]
    unfold Env.stepBody
    simp only [Env.call, fire_comp, Call.bind, q3, k1, k2, k3, k4, k5]
    refine ⟨_, _, rfl, ?_, rfl⟩
    rw [fire_terminated]
    norm_num
  exact ⟨o, r, by simp only [run, Core.apply, q1, q4], q5, q6⟩

/-! ## Examples -/

/-- an Euler step of the current, a load that keeps its speed, an ideal supply -/
def demoPermEx : Sys.Parts ℝ (Sys.DcY ℝ) (List ℝ) (List ℝ) (Sys.DcY ℝ × ℝ) (Conv.CConv ℝ) Unit where
  solverT s := s.2
  solverY s := s.1
  integrate s u t := (⟨s.1.mech, s.1.motor.map fun i => i + (t - s.2) * (60 * u.headD 0 - i)⟩, t)
  setInitial _ y t := (y, t)
  setAction := Conv.CConv.setAction
  convert c i t := (c, c.convert i t)
  iSup := Conv.CConv.iSup
  convReset := Conv.CConv.reset
  getVoltage p _ _ := (p, [60])
  supplyReset p := (p, [60])

/-- sub-episodes with 2 or 3 steps, references between -1/2 and 1/2 -/
def demoWiener : Refs.SubCfg ℕ ℝ where
  name := "i"
  mask := [false, false, true, false, false]
  low := -1 / 2
  high := 1 / 2
  drawLen := Refs.lenDraw demoRng (.pair 2 4)
  make := Refs.wienerMake demoRng (.pair 1 1)
  spawn n := n
  initial := some (Refs.wienerInitial demoRng (-1 / 2) (1 / 2))

/-- before the first reset -/
def demoWorld : World (Sys.DcY ℝ × ℝ) (Conv.CConv ℝ) Unit Unit (Refs.SubSt ℕ ℝ) :=
  ⟨{ t := 0, k := 0, solver := (⟨[0], [0]⟩, 0), conv := .four (Conv.CFour.new (1 / 10000) 0), supply := () }, (), Refs.subInit (-1 / 2, 1 / 2) 2 0⟩

def demoEnv : Setup (Sys.DcY ℝ) (List ℝ) (List ℝ) (Sys.DcY ℝ × ℝ) (Conv.CConv ℝ) Unit Unit (Refs.SubSt ℕ ℝ) :=
  permEx demoPermEx (fun i => i.headD 0) (1 / 10000) [100, 38, 210, 60, 60] (fun g => (g, ⟨[100], [0]⟩)) (fun _ g => g) demoWiener
    fun n => (n, n)

example (ops : List (Op (World (Sys.DcY ℝ × ℝ) (Conv.CConv ℝ) Unit Unit (Refs.SubSt ℕ ℝ)) (List ℝ)))
    (hops : ∀ op ∈ ops, Proper (fun a => a.length = 1) op) :
    ∃ m, build demoEnv = .ok m ∧ Conforms demoEnv (-1) 0 (-10) true (run m (Env.init m demoWorld) ops).2 := by
  obtain ⟨m, h1, h2⟩ := c114_permex demoRng_ok demoPermEx .four rfl ⟨rfl, rfl, rfl, rfl⟩
    ⟨fun _ _ _ => rfl, fun _ => rfl, fun _ _ _ h => ⟨h.1, by simpa [demoPermEx] using h.2⟩, fun _ _ _ h => h⟩ (fun i => i.headD 0)
    (1 / 10000) [100, 38, 210, 60, 60] rfl (fun g : Unit => (g, ⟨[100], [0]⟩)) (fun _ => ⟨rfl, rfl⟩) (fun _ g => g) demoWiener
    (fun n => (n, n)) (.pair 1 1) (.pair 2 4) ⟨1, 1, rfl⟩ rfl trivial (by norm_num [Refs.Range.least]) rfl rfl
    (by norm_num [demoWiener]) (by norm_num [demoWiener]) (by norm_num [demoWiener]) demoWorld rfl rfl rfl rfl
  exact ⟨m, h1, h2 ops hops⟩

/-- Excessive current ends the episode, excessive speed does not. -/
example : Violates id "all_states" ["omega", "torque", "i", "u", "u_sup"] ["i"] [] [0, 0, 2, 0, 1] ∧
    ¬ Violates id "all_states" ["omega", "torque", "i", "u", "u_sup"] ["i"] [] [2, 0, 1, 0, 1] := by
  constructor
  · exact Or.inl ⟨2, "i", 2, rfl, rfl, by norm_num, "i", by simp, Or.inr rfl⟩
  · rintro (⟨i, n, x, h1, h2, h3, k, hk, h4⟩ | ⟨g, hg, -⟩)
    · simp only [List.mem_singleton] at hk
      subst hk
      simp only [id, String.reduceEq, false_or] at h4
      subst h4
      have hi : i < 5 := by simpa using (List.getElem?_eq_some_iff.1 h1).1
      interval_cases i <;> simp at h1
      simp only [List.getElem?_cons_succ, List.getElem?_cons_zero, Option.some.injEq] at h2
      subst h2
      norm_num at h3
    · simp at hg

/-- A voltage cannot be limited in an environment that does not have it. -/
example : ¬ ∃ x, build { demoEnv with limited := ["u_a"] } = .ok x := by
  obtain ⟨w, m, idx, h, -, -⟩ := permEx_modules (p := demoPermEx) (tq := fun i => i.headD 0) (tau := 1 / 10000)
    (limits := [100, 38, 210, 60, 60]) (start := fun g : Unit => (g, ⟨[100], [0]⟩)) (seedSystem := fun _ g => g) (cfg := demoWiener)
    (seedRef := fun n => (n, n))
  obtain ⟨-, -, -, hw, -⟩ := modules_ok h
  intro hx
  obtain ⟨h1 | h1, -, -⟩ := (c114_constructed { demoEnv with limited := ["u_a"] } (fun _ _ => rfl) ⟨w, hw⟩).1 hx
  · simp [demoEnv, permEx] at h1
  · simp [demoEnv, permEx] at h1

end

end GEM.Props
