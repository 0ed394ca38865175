import Verif.Props.Holding
import Verif.Props.Markov

/-!
# C142: superposition at constant speed

A drive whose speed is kept constant is linear: a mixture of starts and actions is answered with the mixture of the answers.
-/

set_option linter.unusedSectionVars false

namespace GEM.Props

noncomputable section

open GEM GEM.Sys GEM.Conv GEM.Motor GEM.Solver GEM.Load

/-! ## Statement -/

/-- the mixture of two numbers, `lam` parts of the second one -/
def mixed (lam a b : ℝ) : ℝ := (1 - lam) * a + lam * b

/-- Three lists, entry by entry. -/
inductive Trio {α β γ : Type} (R : α → β → γ → Prop) : List α → List β → List γ → Prop
  | nil : Trio R [] [] []
  | cons {a b c l l' l''} (h : R a b c) (hs : Trio R l l' l'') : Trio R (a :: l) (b :: l') (c :: l'')

/-- The third ODE state is the mixture of the first two, which agree in the entries `same`. -/
def Mix {N : ℕ} (lam : ℝ) (same : Fin N → Prop) (x y z : Fin N → ℝ) : Prop :=
  (∀ j, z j = mixed lam (x j) (y j)) ∧ ∀ j, same j → y j = x j

/-- Calls of three systems: resets to ODE states and to their mixture, or related actions. -/
inductive MixedCalls {Y A : Type} {N : ℕ} (lam : ℝ) (same : Fin N → Prop) (toY : (Fin N → ℝ) → Y) (asked : A → A → A → Prop) :
    Y ⊕ A → Y ⊕ A → Y ⊕ A → Prop
  | reset {x y z : Fin N → ℝ} (h : Mix lam same x y z) : MixedCalls lam same toY asked (.inl (toY x)) (.inl (toY y)) (.inl (toY z))
  | step {a b c : A} (h : asked a b c) : MixedCalls lam same toY asked (.inr a) (.inr b) (.inr c)

/-- All three systems answer, and the third one with the mixture in these states. -/
def MixedAnswers (lam : ℝ) (names told : List String) (r s t : Except Err (List ℝ)) : Prop :=
  ∃ o o' o'', r = .ok o ∧ s = .ok o' ∧ t = .ok o'' ∧ ∀ n ∈ told, readState names o'' n = mixed lam (readState names o n) (readState names o' n)

/-- Actions whose third is carried out as the mixture of the first two. -/
def MixedActions {A : Type} {n : ℕ} (lam : ℝ) (legal : A → Prop) (out : A → Fin n → ℝ) (a b c : A) : Prop :=
  legal a ∧ legal b ∧ legal c ∧ ∀ k, out c k = mixed lam (out a k) (out b k)

/-- Superposition: three systems of the same kind, with Euler solvers of the same number of intervals, the first call being a reset. -/
def Superposes {m n : ℕ} {Y U A C P : Type} (pw : Power A C) (out : A → Fin n → ℝ) (legal : A → Prop) (src : Source P) (load : AnyLoad)
    (torque : (Fin m → ℝ) → ℝ) (ode : (Fin m → ℝ) → U → ℝ → Fin m → ℝ) (toY : (Fin (1 + m) → ℝ) → Y) (ofY : Y → Fin (1 + m) → ℝ)
    (f : Frame ℝ Y U A) (rep : Y → List ℝ → List ℝ → Except Err (List ℝ)) (limits : List ℝ) (same : Fin (1 + m) → Prop)
    (asked : ℝ → A → A → A → Prop) (names told : List String) : Prop :=
  ∀ (lam d : ℝ) (w0 : Fin n → ℝ) (scratch scratch' scratch'' : Option (Fin (1 + m) → ℝ)) (st st' st'' : St ℝ (Euler ℝ (Fin (1 + m) → ℝ)) C P)
    (x y z : Fin (1 + m) → ℝ) (ops ops' ops'' : List (Y ⊕ A)),
    SetOnce pw st.conv d legal out w0 → SetOnce pw st'.conv d legal out w0 → SetOnce pw st''.conv d legal out w0 →
    st.solver.nsteps ≠ 0 → st'.solver.nsteps = st.solver.nsteps → st''.solver.nsteps = st.solver.nsteps → Mix lam same x y z →
    Trio (MixedCalls lam same toY (asked lam)) ops ops' ops'' →
    Trio (MixedAnswers lam names told)
      (answers (eulerParts pw src load torque ode scratch toY ofY) f rep d limits st (.inl (toY x) :: ops))
      (answers (eulerParts pw src load torque ode scratch' toY ofY) f rep d limits st' (.inl (toY y) :: ops'))
      (answers (eulerParts pw src load torque ode scratch'' toY ofY) f rep d limits st'' (.inl (toY z) :: ops''))

/-! ## Histories -/

section systems

variable {m n : ℕ} {Y U A C P : Type} {pw : Power A C} {src : Source P} {torque : (Fin m → ℝ) → ℝ}
  {ode : (Fin m → ℝ) → U → ℝ → Fin m → ℝ} {load : AnyLoad} {toY : (Fin (1 + m) → ℝ) → Y}
  {ofY : Y → Fin (1 + m) → ℝ} {f : Frame ℝ Y U A} {rep : Y → List ℝ → List ℝ → Except Err (List ℝ)} {limits : List ℝ} {v : ℝ}
  {out : A → Fin n → ℝ} {legal : A → Prop} {same : Fin (1 + m) → Prop} {asked : ℝ → A → A → A → Prop} {names told : List String}

/-- the mixture of the reports -/
def MixedReports (lam : ℝ) (names told : List String) (r s t : Except Err (List ℝ)) : Prop :=
  ∃ o o' o'', r = .ok o ∧ s = .ok o' ∧ t = .ok o'' ∧ o.length = names.length ∧ o'.length = names.length ∧ o''.length = names.length ∧
    ∀ n ∈ told, readState names o'' n = mixed lam (readState names o n) (readState names o' n)

/-- What a system does with mixtures. -/
structure LinearFrame (torque : (Fin m → ℝ) → ℝ) (ode : (Fin m → ℝ) → U → ℝ → Fin m → ℝ) (load : AnyLoad) (legal : A → Prop) (out : A → Fin n → ℝ)
    (f : Frame ℝ Y U A) (rep : Y → List ℝ → List ℝ → Except Err (List ℝ)) (toY : (Fin (1 + m) → ℝ) → Y) (same : Fin (1 + m) → Prop)
    (asked : ℝ → A → A → A → Prop) (names told : List String) : Prop where
  act : ∀ lam x y z a b c, Mix lam same x y z → asked lam a b c →
    MixedActions lam legal out (f.action (toY x) a) (f.action (toY y) b) (f.action (toY z) c)
  cur : ∀ x, ∃ i : Fin n → ℝ, f.iIn (toY x) = List.ofFn i
  last : ∀ lam x y z (w w' w'' : Fin n → ℝ), Mix lam same x y z → (∀ k, w'' k = mixed lam (w k) (w' k)) → ∃ u u' u'',
    f.lastU (toY x) (List.ofFn w) = .ok u ∧ f.lastU (toY y) (List.ofFn w') = .ok u' ∧ f.lastU (toY z) (List.ofFn w'') = .ok u'' ∧
    ∀ x y z, Mix lam same x y z → Mix lam same (core torque ode load u x) (core torque ode load u' y) (core torque ode load u'' z)
  report : ∀ lam x y z x' y' z' (w w' w'' : Fin n → ℝ) v, Mix lam same x y z → Mix lam same x' y' z' → (∀ k, w'' k = mixed lam (w k) (w' k)) →
    MixedReports lam names told (f.report (toY x) (toY x') (List.ofFn w) [v]) (f.report (toY y) (toY y') (List.ofFn w') [v])
      (f.report (toY z) (toY z') (List.ofFn w'') [v])
  start : ∀ lam x y z (w : Fin n → ℝ) v, Mix lam same x y z →
    MixedReports lam names told (rep (toY x) (List.ofFn w) [v]) (rep (toY y) (List.ofFn w) [v]) (rep (toY z) (List.ofFn w) [v])

theorem mixed_self (lam a : ℝ) : mixed lam a a = a := by
  unfold mixed
  ring

theorem mix_step {N : ℕ} {lam h : ℝ} {same : Fin N → Prop} {x y z x' y' z' : Fin N → ℝ} (h1 : Mix lam same x y z) (h2 : Mix lam same x' y' z') :
    Mix lam same (x + h • x') (y + h • y') (z + h • z') := by
  refine ⟨fun j => ?_, fun j hj => ?_⟩
  · simp only [Pi.add_apply, Pi.smul_apply, smul_eq_mul, h1.1, h2.1, mixed]
    ring
  · simp only [Pi.add_apply, Pi.smul_apply, h1.2 j hj, h2.2 j hj]

theorem mix_iterate {N : ℕ} {lam h : ℝ} {same : Fin N → Prop} {g g' g'' : (Fin N → ℝ) → Fin N → ℝ}
    (hg : ∀ x y z, Mix lam same x y z → Mix lam same (g x) (g' y) (g'' z)) (k : ℕ) {x y z : Fin N → ℝ} (hx : Mix lam same x y z) :
    Mix lam same ((euStep g h)^[k] x) ((euStep g' h)^[k] y) ((euStep g'' h)^[k] z) := by
  induction k generalizing x y z with
  | zero => exact hx
  | succ k ih =>
    simp only [Function.iterate_succ, Function.comp]
    exact ih (mix_step hx (hg _ _ _ hx))

theorem answers_of_reports {lam : ℝ} {r s t : Except Err (List ℝ)} (hl : limits.length = names.length) (h : MixedReports lam names told r s t) :
    MixedAnswers lam names told (r.bind fun s => divLimits s limits) (s.bind fun s => divLimits s limits) (t.bind fun s => divLimits s limits) := by
  obtain ⟨o, o', o'', rfl, rfl, rfl, h1, h2, h3, h⟩ := h
  refine ⟨List.zipWith (· / ·) o limits, List.zipWith (· / ·) o' limits, List.zipWith (· / ·) o'' limits,
    by simp only [Except.bind, divLimits, h1, hl, if_true], by simp only [Except.bind, divLimits, h2, hl, if_true],
    by simp only [Except.bind, divLimits, h3, hl, if_true], fun n hn => ?_⟩
  rw [read_div, read_div, read_div, h n hn]
  unfold mixed
  ring

/-- one step -/
theorem simulate_out (hs : load.Static) (hv : FixedVoltage src v) {d : ℝ} {D : Type} {M : Machine D A n} {all : A → Prop} {holds : C → D → Prop}
    (hR : Realises pw M all holds) (hM : ∀ a, legal a → all a ∧ ∀ δ, M.times δ a = [d] ∧ ∀ o i, M.out δ a o i = out a)
    (hcur : ∀ x, ∃ i : Fin n → ℝ, f.iIn (toY x) = List.ofFn i) {scratch : Option (Fin (1 + m) → ℝ)} {st : St ℝ (Euler ℝ (Fin (1 + m) → ℝ)) C P} {x : Fin (1 + m) → ℝ}
    {N : ℕ} (hN : N ≠ 0) (hst : ∃ δ, holds st.conv δ) (e : st.solver = ⟨st.t, x, N⟩) {a : A} (ha : legal (f.action (toY x) a)) {u : U}
    (hu : f.lastU (toY x) (List.ofFn fun k => out (f.action (toY x) a) k * v) = .ok u) :
    ∃ st', (∃ δ, holds st'.conv δ) ∧ st'.solver = ⟨st'.t, (euStep (core torque ode load u) (d / N))^[N] x, N⟩ ∧
      simulate (eulerParts pw src load torque ode scratch toY ofY) f d limits st a = (st', (f.report (toY x)
        (toY ((euStep (core torque ode load u) (d / N))^[N] x)) (List.ofFn fun k => out (f.action (toY x) a) k * v) [v]).bind fun s => divLimits s limits) := by
  obtain ⟨δ, hδ⟩ := hst
  obtain ⟨i, hi⟩ := hcur x
  obtain ⟨a1, a2⟩ := hM _ ha
  have ey : st.solver.y = x := by rw [e]
  have en : st.solver.nsteps = N := by rw [e]
  have et : st.solver.t = st.t := by rw [e]
  obtain ⟨c', p', h1, h2⟩ := simulate_once (torque := torque) (ode := ode) (load := load) (scratch := scratch) (toY := toY) (ofY := ofY) (f := f)
    (limits := limits) (d := d) (v := v) (src := src) (a := f.action (toY x) a) (b := a) (w := out (f.action (toY x) a)) (i := i) (δ := δ) (u := u)
    hR hs hv (st := st) hδ (by rw [ey]) a1 ⟨d, (a2 δ).1⟩ ((a2 δ).2 _ _) (by rw [ey]; exact hi) (by rw [ey]; exact hu) (by rw [en]; exact hN) et
  rw [ey, en] at h2
  exact ⟨_, ⟨_, h1⟩, rfl, h2⟩

theorem superposes_of (hf : LinearFrame torque ode load legal out f rep toY same asked names told) (hs : load.Static) (hv : FixedVoltage src v)
    (hl : limits.length = names.length) (hb : ∀ x, ofY (toY x) = x) :
    Superposes pw out legal src load torque ode toY ofY f rep limits same asked names told := by
  intro lam d w0 scratch scratch' scratch'' st st' st'' x y z ops ops' ops'' hc hc' hc'' hN e' e'' hx ho
  obtain ⟨D, M, all, holds, hR, hst, hM, h0⟩ := hc
  obtain ⟨D', M', all', holds', hR', hst', hM', h0'⟩ := hc'
  obtain ⟨D'', M'', all'', holds'', hR'', hst'', hM'', h0''⟩ := hc''
  obtain ⟨N, e⟩ : ∃ N, N = st.solver.nsteps := ⟨_, rfl⟩
  rw [← e] at hN e' e''
  -- resets
  have hr : ∀ {st st' st'' : St ℝ (Euler ℝ (Fin (1 + m) → ℝ)) C P} {x y z : Fin (1 + m) → ℝ} {ops ops' ops'' : List (Y ⊕ A)},
      (∃ δ, holds st.conv δ) → (∃ δ, holds' st'.conv δ) → (∃ δ, holds'' st''.conv δ) → st.solver.nsteps = N → st'.solver.nsteps = N →
      st''.solver.nsteps = N → Mix lam same x y z →
      (∀ s s' s'' : St ℝ (Euler ℝ (Fin (1 + m) → ℝ)) C P, (∃ δ, holds s.conv δ) → (∃ δ, holds' s'.conv δ) → (∃ δ, holds'' s''.conv δ) →
        s.solver = ⟨s.t, x, N⟩ → s'.solver = ⟨s'.t, y, N⟩ → s''.solver = ⟨s''.t, z, N⟩ → Trio (MixedAnswers lam names told)
          (answers (eulerParts pw src load torque ode scratch toY ofY) f rep d limits s ops)
          (answers (eulerParts pw src load torque ode scratch' toY ofY) f rep d limits s' ops')
          (answers (eulerParts pw src load torque ode scratch'' toY ofY) f rep d limits s'' ops'')) →
      Trio (MixedAnswers lam names told)
        (answers (eulerParts pw src load torque ode scratch toY ofY) f rep d limits st (.inl (toY x) :: ops))
        (answers (eulerParts pw src load torque ode scratch' toY ofY) f rep d limits st' (.inl (toY y) :: ops'))
        (answers (eulerParts pw src load torque ode scratch'' toY ofY) f rep d limits st'' (.inl (toY z) :: ops'')) := by
    rintro st st' st'' x y z ops ops' ops'' ⟨δ, hδ⟩ ⟨δ', hδ'⟩ ⟨δ'', hδ''⟩ e e' e'' hx ih
    refine .cons ?_ (ih _ _ _ ⟨δ, hR.2 _ _ hδ⟩ ⟨δ', hR'.2 _ _ hδ'⟩ ⟨δ'', hR''.2 _ _ hδ''⟩ ?_ ?_ ?_)
    · simp only [reset, eulerParts, hv.2, h0 _ _ hδ, h0' _ _ hδ', h0'' _ _ hδ'', products_ofFn]
      exact answers_of_reports hl (hf.start _ _ _ _ _ _ hx)
    · simp only [reset, eulerParts, Euler.setInitialValue, e, hb]
    · simp only [reset, eulerParts, Euler.setInitialValue, e', hb]
    · simp only [reset, eulerParts, Euler.setInitialValue, e'', hb]
  refine hr hst hst' hst'' e.symm e' e'' hx ?_
  clear hst hst' hst'' e e' e''
  induction ho generalizing x y z with
  | nil => intro _ _ _ _ _ _ _ _ _; exact .nil
  | cons h _ ih =>
    intro s s' s'' hst hst' hst'' e e' e''
    cases h with
    | reset h => exact hr hst hst' hst'' (by rw [e]) (by rw [e']) (by rw [e'']) h (ih _ _ _ h)
    | step h =>
      obtain ⟨l1, l2, l3, hw⟩ := hf.act lam _ _ _ _ _ _ hx h
      have hw' : ∀ k, out (f.action (toY z) _) k * v = mixed lam (out (f.action (toY x) _) k * v) (out (f.action (toY y) _) k * v) := fun k => by
        rw [hw k]
        unfold mixed
        ring
      obtain ⟨u, u', u'', k1, k2, k3, hg⟩ := hf.last lam _ _ _ _ _ _ hx hw'
      obtain ⟨s1, i1, i2, i3⟩ := simulate_out (torque := torque) (ode := ode) (ofY := ofY) (limits := limits) (scratch := scratch) hs hv hR hM hf.cur hN hst e l1 k1
      obtain ⟨s1', i1', i2', i3'⟩ := simulate_out (torque := torque) (ode := ode) (ofY := ofY) (limits := limits) (scratch := scratch') hs hv hR' hM' hf.cur hN hst' e' l2 k2
      obtain ⟨s1'', i1'', i2'', i3''⟩ := simulate_out (torque := torque) (ode := ode) (ofY := ofY) (limits := limits) (scratch := scratch'') hs hv hR'' hM'' hf.cur hN hst'' e'' l3 k3
      have hz := mix_iterate (h := d / N) hg N hx
      simp only [answers, i3, i3', i3'']
      exact .cons (answers_of_reports hl (hf.report _ _ _ _ _ _ _ _ _ _ _ hx hz hw')) (ih _ _ _ hz _ _ _ i1 i1' i1'' i2 i2' i2'')

end systems

/-! ## DC motors -/

/-- At constant speed only the electrical part is left to be shown. -/
theorem core_mix {m : ℕ} {U : Type} {torque : (Fin m → ℝ) → ℝ} {ode : (Fin m → ℝ) → U → ℝ → Fin m → ℝ} {lam : ℝ} {same : Fin (1 + m) → Prop}
    {u u' u'' : U} {x y z : Fin (1 + m) → ℝ}
    (h : ∀ j, ode (fun i => z (Fin.natAdd 1 i)) u'' (z (Fin.castAdd m 0)) j =
      mixed lam (ode (fun i => x (Fin.natAdd 1 i)) u (x (Fin.castAdd m 0)) j) (ode (fun i => y (Fin.natAdd 1 i)) u' (y (Fin.castAdd m 0)) j))
    (hs : ∀ j, same (Fin.natAdd 1 j) → ode (fun i => y (Fin.natAdd 1 i)) u' (y (Fin.castAdd m 0)) j =
      ode (fun i => x (Fin.natAdd 1 i)) u (x (Fin.castAdd m 0)) j) :
    Mix lam same (core torque ode .const u x) (core torque ode .const u' y) (core torque ode .const u'' z) := by
  refine ⟨fun j => ?_, fun j => ?_⟩
  · refine Fin.addCases (fun i => ?_) (fun i => ?_) j
    · simp only [core, Fin.append_left]
      exact (mixed_self lam 0).symm
    · simp only [core, Fin.append_right]
      exact h i
  · refine Fin.addCases (fun i _ => ?_) (fun i hi => ?_) j
    · simp only [core, Fin.append_left]
      rfl
    · simp only [core, Fin.append_right]
      exact hs i hi

/-- the speed -/
def speedOnly {m : ℕ} (j : Fin (1 + m)) : Prop := j = Fin.castAdd m 0

theorem mix_speed {m : ℕ} {lam : ℝ} {x y z : Fin (1 + m) → ℝ} {same : Fin (1 + m) → Prop} {j : Fin (1 + m)} (hj : same j) (h : Mix lam same x y z) :
    y j = x j ∧ z j = x j := by
  have e := h.2 _ hj
  exact ⟨e, by rw [h.1, e, mixed_self]⟩

/-- frames of DC motors with one current -/
theorem one_linear {A : Type} {torque : (Fin 1 → ℝ) → ℝ} {ode : (Fin 1 → ℝ) → List ℝ → ℝ → Fin 1 → ℝ} {legal : A → Prop} {out : A → Fin 1 → ℝ}
    {same : Fin (1 + 1) → Prop} {told : List String} (ht : ∀ n ∈ told, n ∈ ["omega", "i", "u", "u_sup"] ∨
      n = "torque" ∧ ∀ lam a b, torque (fun _ => mixed lam a b) = mixed lam (torque fun _ => a) (torque fun _ => b))
    (ho : ∀ lam x y z (w w' w'' : Fin 1 → ℝ), Mix lam same x y z → (∀ k, w'' k = mixed lam (w k) (w' k)) →
      Mix lam same (core torque ode .const (List.ofFn w) x) (core torque ode .const (List.ofFn w') y) (core torque ode .const (List.ofFn w'') z)) :
    LinearFrame (A := A) (n := 1) torque ode .const legal out (dcFrame id (dcTq torque) [0] 1 1) (dcResetReport (dcTq torque) [0]) dcY same
      (fun lam => MixedActions lam legal out) dcOneStates told := by
  have en : dcOneStates = ["omega", "torque", "i", "u", "u_sup"] := rfl
  have rep : ∀ lam (x y z : Fin (1 + 1) → ℝ) (a b c v : ℝ), Mix lam same x y z → c = mixed lam a b → ∀ n ∈ told,
      readState dcOneStates [z 0, dcTq torque [z 1], z 1, c, v] n = mixed lam (readState dcOneStates [x 0, dcTq torque [x 1], x 1, a, v] n)
        (readState dcOneStates [y 0, dcTq torque [y 1], y 1, b, v] n) := by
    intro lam x y z a b c v h hc n hn
    rcases ht n hn with hn | ⟨rfl, hl⟩
    · simp only [List.mem_cons, List.not_mem_nil, or_false] at hn
      rcases hn with rfl | rfl | rfl | rfl
      · simpa [en, readState] using h.1 0
      · simpa [en, readState] using h.1 1
      · simpa [en, readState] using hc
      · simp [en, readState, mixed_self]
    · have t : ∀ r : ℝ, dcTq torque [r] = torque fun _ => r := fun r => by
        unfold dcTq
        congr 1
        funext i
        fin_cases i
        rfl
      simp only [en, readState]
      simp [t, h.1 1, hl]
  refine ⟨fun _ _ _ _ _ _ _ _ h => h, fun x => ⟨fun i => x (Fin.natAdd 1 i), rfl⟩, fun lam x y z w w' w'' h hw =>
    ⟨_, _, _, rfl, rfl, rfl, fun x y z h => ho lam x y z w w' w'' h hw⟩, fun lam x y z x' y' z' w w' w'' v h h' hw => ?_, fun lam x y z w v h => ?_⟩
  · refine ⟨[x' 0, dcTq torque [x' 1], x' 1, w 0, v], [y' 0, dcTq torque [y' 1], y' 1, w' 0, v], [z' 0, dcTq torque [z' 1], z' 1, w'' 0, v],
      ?_, ?_, ?_, rfl, rfl, rfl, rep lam x' y' z' _ _ _ v h' (hw 0)⟩
    all_goals simp [dcFrame, dcReport, dcY, getE, assign, Bind.bind, Except.bind, Pure.pure, Except.pure, List.mapM_cons, List.mapM_nil]
  · refine ⟨[x 0, dcTq torque [x 1], x 1, w 0, v], [y 0, dcTq torque [y 1], y 1, w 0, v], [z 0, dcTq torque [z 1], z 1, w 0, v],
      ?_, ?_, ?_, rfl, rfl, rfl, rep lam x y z _ _ _ v h (mixed_self _ _).symm⟩
    all_goals simp [dcResetReport, dcY, getE, Bind.bind, Except.bind, Pure.pure, Except.pure, List.mapM_cons, List.mapM_nil]

/-- frames of DC motors with two currents -/
theorem two_linear {A : Type} {n : ℕ} {torque : (Fin 2 → ℝ) → ℝ} {ode : (Fin 2 → ℝ) → List ℝ → ℝ → Fin 2 → ℝ} {legal : A → Prop} {out : A → Fin n → ℝ}
    {same : Fin (1 + 2) → Prop} {iIn : List ℝ → List ℝ} (hi : ∀ x : Fin (1 + 2) → ℝ, ∃ i : Fin n → ℝ, iIn (dcY x).motor = List.ofFn i)
    {names told : List String} (hn : names.length = 5 + n)
    (hr : ∀ lam (a b c d a' b' c' d' a'' b'' c'' d'' e : ℝ) (w w' w'' : Fin n → ℝ), a'' = mixed lam a a' → c'' = mixed lam c c' → d'' = mixed lam d d' →
      (∀ k, w'' k = mixed lam (w k) (w' k)) → ∀ s ∈ told, readState names ([a'', b'', c'', d''] ++ List.ofFn w'' ++ [e]) s =
        mixed lam (readState names ([a, b, c, d] ++ List.ofFn w ++ [e]) s) (readState names ([a', b', c', d'] ++ List.ofFn w' ++ [e]) s))
    (ho : ∀ lam x y z (w w' w'' : Fin n → ℝ), Mix lam same x y z → (∀ k, w'' k = mixed lam (w k) (w' k)) →
      Mix lam same (core torque ode .const (List.ofFn w) x) (core torque ode .const (List.ofFn w') y) (core torque ode .const (List.ofFn w'') z)) :
    LinearFrame (A := A) (n := n) torque ode .const legal out (dcFrame iIn (dcTq torque) [0, 1] n 1) (dcResetReport (dcTq torque) [0, 1]) dcY same
      (fun lam => MixedActions lam legal out) names told := by
  refine ⟨fun _ _ _ _ _ _ _ _ h => h, hi, fun lam x y z w w' w'' h hw =>
    ⟨_, _, _, rfl, rfl, rfl, fun x y z h => ho lam x y z w w' w'' h hw⟩, fun lam x y z x' y' z' w w' w'' v h h' hw => ?_, fun lam x y z w v h => ?_⟩
  · refine ⟨[x' 0, dcTq torque [x' 1, x' 2], x' 1, x' 2] ++ List.ofFn w ++ [v], [y' 0, dcTq torque [y' 1, y' 2], y' 1, y' 2] ++ List.ofFn w' ++ [v],
      [z' 0, dcTq torque [z' 1, z' 2], z' 1, z' 2] ++ List.ofFn w'' ++ [v], ?_, ?_, ?_, by simp [hn]; omega, by simp [hn]; omega, by simp [hn]; omega,
      hr lam _ _ _ _ _ _ _ _ _ _ _ _ v _ _ _ (h'.1 0) (h'.1 1) (h'.1 2) hw⟩
    all_goals simp [dcFrame, dcReport, dcY, getE, assign, Bind.bind, Except.bind, Pure.pure, Except.pure, List.mapM_cons, List.mapM_nil]
  · refine ⟨[x 0, dcTq torque [x 1, x 2], x 1, x 2] ++ List.ofFn w ++ [v], [y 0, dcTq torque [y 1, y 2], y 1, y 2] ++ List.ofFn w ++ [v],
      [z 0, dcTq torque [z 1, z 2], z 1, z 2] ++ List.ofFn w ++ [v], ?_, ?_, ?_, by simp [hn]; omega, by simp [hn]; omega, by simp [hn]; omega,
      hr lam _ _ _ _ _ _ _ _ _ _ _ _ v _ _ _ (h.1 0) (h.1 1) (h.1 2) fun k => (mixed_self _ _).symm⟩
    all_goals simp [dcResetReport, dcY, getE, Bind.bind, Except.bind, Pure.pure, Except.pure, List.mapM_cons, List.mapM_nil]

/-- C142 for the DC motors, driven at constant speed by converters that set their switches once in a step: the permanently excited motor in all states,
even from different speeds, the other ones in all states but the torque (a product of currents). -/
theorem c142_dc (pe : PermExParams ℝ) (mp : DcParams ℝ) {A C P : Type} (pw : Power A C) (legal : A → Prop) (src : Source P) (limits : List ℝ) (v : ℝ)
    (hv : FixedVoltage src v) :
    (∀ out : A → Fin 1 → ℝ,
      (limits.length = 5 →
        Superposes pw out legal src .const (permExTorque pe) (fun x (u : List ℝ) w => permExOde pe x (fun i => u.getD i 0) w) dcY ofDcY
          (dcFrame id (dcTq (permExTorque pe)) [0] 1 1) (dcResetReport (dcTq (permExTorque pe)) [0]) limits (fun _ => False)
          (fun lam => MixedActions lam legal out) dcOneStates dcOneStates ∧
        Superposes pw out legal src .const (seriesTorque mp) (fun x (u : List ℝ) w => seriesOde mp x (fun i => u.getD i 0) w) dcY ofDcY
          (dcFrame id (dcTq (seriesTorque mp)) [0] 1 1) (dcResetReport (dcTq (seriesTorque mp)) [0]) limits speedOnly
          (fun lam => MixedActions lam legal out) dcOneStates ["omega", "i", "u", "u_sup"]) ∧
      (limits.length = 6 →
        Superposes pw out legal src .const (dcTorque mp) (fun x (u : List ℝ) w => shuntOde mp x (fun i => u.getD i 0) w) dcY ofDcY
          (dcFrame (fun l => [l.getD 0 0 + l.getD 1 0]) (dcTq (dcTorque mp)) [0, 1] 1 1) (dcResetReport (dcTq (dcTorque mp)) [0, 1]) limits speedOnly
          (fun lam => MixedActions lam legal out) shuntStates ["omega", "i_a", "i_e", "u", "u_sup"])) ∧
    ∀ out : A → Fin (1 + 1) → ℝ, limits.length = 7 →
      Superposes pw out legal src .const (dcTorque mp) (fun x (u : List ℝ) w => dcOde mp x (fun i => u.getD i 0) w) dcY ofDcY
        (dcFrame id (dcTq (dcTorque mp)) [0, 1] 2 1) (dcResetReport (dcTq (dcTorque mp)) [0, 1]) limits speedOnly
        (fun lam => MixedActions lam legal out) extExStates ["omega", "i_a", "i_e", "u_a", "u_e", "u_sup"] := by
  refine ⟨fun out => ⟨fun hl => ⟨superposes_of (one_linear (fun n hn => ?_) fun lam x y z w w' w'' h hw => ?_) trivial hv hl back_dc,
    superposes_of (one_linear (fun n hn => .inl hn) fun lam x y z w w' w'' h hw => ?_) trivial hv hl back_dc⟩, fun hl =>
    superposes_of (two_linear (fun x => ⟨fun _ => (dcY x).motor.getD 0 0 + (dcY x).motor.getD 1 0, by simp⟩) rfl ?_ fun lam x y z w w' w'' h hw => ?_)
      trivial hv hl back_dc⟩,
    fun out hl => superposes_of (two_linear (fun x => ⟨fun i => x (Fin.natAdd 1 i), rfl⟩) rfl ?_ fun lam x y z w w' w'' h hw => ?_) trivial hv hl back_dc⟩
  · have en : dcOneStates = ["omega", "torque", "i", "u", "u_sup"] := rfl
    simp only [en, List.mem_cons, List.not_mem_nil, or_false] at hn ⊢
    rcases hn with rfl | rfl | rfl | rfl | rfl
    · simp
    · refine .inr ⟨rfl, fun lam a b => ?_⟩
      simp only [permExTorque, mixed]
      ring
    all_goals simp
  · have h0 := h.1 0
    have h1 := h.1 1
    refine core_mix (fun j => ?_) fun j hj => hj.elim
    fin_cases j
    simp [permExOde, permExConstants, rowsDiv, Matrix.mulVec, dotProduct, Fin.sum_univ_succ, h0, h1, hw, mixed]
    ring
  · obtain ⟨a1, a2⟩ : y 0 = x 0 ∧ z 0 = x 0 := mix_speed (same := speedOnly) (j := 0) rfl h
    have h1 := h.1 1
    refine core_mix (fun j => ?_) fun j hj => ?_
    · fin_cases j
      simp [seriesOde, seriesConstants, rowsDiv, Matrix.mulVec, dotProduct, Fin.sum_univ_succ, a1, a2, h1, hw, mixed]
      ring
    · fin_cases j
      exact absurd hj (by simp [speedOnly])
  · intro lam a b c d a' b' c' d' a'' b'' c'' d'' e w w' w'' ha hc hd hw n hn
    have en : shuntStates = ["omega", "torque", "i_a", "i_e", "u", "u_sup"] := rfl
    simp only [List.mem_cons, List.not_mem_nil, or_false] at hn
    rcases hn with rfl | rfl | rfl | rfl | rfl <;> simp [en, readState, ha, hc, hd, hw, mixed_self]
  · obtain ⟨a1, a2⟩ : y 0 = x 0 ∧ z 0 = x 0 := mix_speed (same := speedOnly) (j := 0) rfl h
    have h1 := h.1 1
    have h2 := h.1 2
    refine core_mix (fun j => ?_) fun j hj => ?_
    · simp only [shuntOde, dc_ode]
      fin_cases j <;> simp [a1, a2, h1, h2, hw, mixed] <;> ring
    · fin_cases j <;> exact absurd hj (by simp [speedOnly, Fin.ext_iff])
  · intro lam a b c d a' b' c' d' a'' b'' c'' d'' e w w' w'' ha hc hd hw n hn
    have en : extExStates = ["omega", "torque", "i_a", "i_e", "u_a", "u_e", "u_sup"] := rfl
    simp only [List.mem_cons, List.not_mem_nil, or_false] at hn
    rcases hn with rfl | rfl | rfl | rfl | rfl | rfl <;> simp [en, readState, ha, hc, hd, hw, mixed_self, List.ofFn_succ]
  · obtain ⟨a1, a2⟩ : y 0 = x 0 ∧ z 0 = x 0 := mix_speed (same := speedOnly) (j := 0) rfl h
    have h1 := h.1 1
    have h2 := h.1 2
    refine core_mix (fun j => ?_) fun j hj => ?_
    · simp only [dc_ode]
      fin_cases j <;> simp [a1, a2, h1, h2, hw, mixed, List.ofFn_succ] <;> ring
    · fin_cases j <;> exact absurd hj (by simp [speedOnly, Fin.ext_iff])

/-! ## Actions -/

theorem mixed_mem {lam a b lo hi : ℝ} (h0 : 0 ≤ lam) (h1 : lam ≤ 1) (ha : lo ≤ a ∧ a ≤ hi) (hb : lo ≤ b ∧ b ≤ hi) :
    lo ≤ mixed lam a b ∧ mixed lam a b ≤ hi := by
  unfold mixed
  constructor <;> nlinarith [ha.1, ha.2, hb.1, hb.2]

theorem clip_mixed {lam a b lo hi : ℝ} (h0 : 0 ≤ lam) (h1 : lam ≤ 1) (ha : lo ≤ a ∧ a ≤ hi) (hb : lo ≤ b ∧ b ≤ hi) :
    clip (mixed lam a b) lo hi = mixed lam (clip a lo hi) (clip b lo hi) := by
  have h := mixed_mem h0 h1 ha hb
  rw [clip_of_mem h.1 h.2, clip_of_mem ha.1 ha.2, clip_of_mem hb.1 hb.2]

/-- What the actions of `c142_dc` are: mixtures of duty cycles within the action space are carried out as mixtures. -/
theorem c142_actions (lam : ℝ) (h0 : 0 ≤ lam) (h1 : lam ≤ 1) :
    (∀ a b : ℝ, 0 ≤ a ∧ a ≤ 1 → 0 ≤ b ∧ b ≤ 1 → MixedActions lam (·.length = 1) twoDuty [a] [b] [mixed lam a b]) ∧
    (∀ a b : ℝ, -1 ≤ a ∧ a ≤ 1 → -1 ≤ b ∧ b ≤ 1 → MixedActions lam (·.length = 1) fourDuty [a] [b] [mixed lam a b]) ∧
    (∀ a b : Fin 2 → ℝ, (∀ k, -1 ≤ a k ∧ a k ≤ 1) → (∀ k, -1 ≤ b k ∧ b k ≤ 1) →
      MixedActions lam (·.length = 2) (fun a => Fin.append (fourDuty (a.take 1)) (fourDuty (a.drop 1))) (List.ofFn a) (List.ofFn b)
        (List.ofFn fun k => mixed lam (a k) (b k))) ∧
    (∀ a b : Fin 3 → ℝ, (∀ k, -1 ≤ a k ∧ a k ≤ 1) → (∀ k, -1 ≤ b k ∧ b k ≤ 1) →
      MixedActions lam (·.length = 3) b6Duty (List.ofFn a) (List.ofFn b) (List.ofFn fun k => mixed lam (a k) (b k))) ∧
    ∀ a b : Fin 4 → ℝ, (∀ k, -1 ≤ a k ∧ a k ≤ 1) → (∀ k, -1 ≤ b k ∧ b k ≤ 1) →
      MixedActions lam (·.length = 3 + 1) (fun a => Fin.append (b6Duty (a.take 3)) (fourDuty (a.drop 3))) (List.ofFn a) (List.ofFn b)
        (List.ofFn fun k => mixed lam (a k) (b k)) := by
  have half : ∀ a b : ℝ, mixed lam a b / 2 = mixed lam (a / 2) (b / 2) := fun a b => by unfold mixed; ring
  refine ⟨fun a b ha hb => ⟨rfl, rfl, rfl, fun k => ?_⟩, fun a b ha hb => ⟨rfl, rfl, rfl, fun k => ?_⟩,
    fun a b ha hb => ⟨by simp, by simp, by simp, fun k => ?_⟩, fun a b ha hb => ⟨by simp, by simp, by simp, fun k => ?_⟩,
    fun a b ha hb => ⟨by simp, by simp, by simp, fun k => ?_⟩⟩
  · simp only [twoDuty, List.headD_cons]
    exact clip_mixed h0 h1 ha hb
  · simp only [fourDuty, List.headD_cons]
    exact clip_mixed h0 h1 ha hb
  · fin_cases k <;> simp [Fin.append, Fin.addCases, fourDuty, List.ofFn_succ, clip_mixed h0 h1 (ha _) (hb _)]
  · fin_cases k <;> simp [b6Duty, List.ofFn_succ, clip_mixed h0 h1 (ha _) (hb _), half]
  · fin_cases k <;> simp [Fin.append, Fin.addCases, fourDuty, b6Duty, List.ofFn_succ, clip_mixed h0 h1 (ha _) (hb _), half]

/-- A permanently excited motor with a continuous four quadrant converter: half the sum of two runs is the run with half the sums of the starts and of
the duty cycles. -/
example (pe : PermExParams ℝ) (limits : List ℝ) (hl : limits.length = 5) (w i w' i' a b a' b' : ℝ) (ha : -1 ≤ a ∧ a ≤ 1) (hb : -1 ≤ b ∧ b ≤ 1)
    (ha' : -1 ≤ a' ∧ a' ≤ 1) (hb' : -1 ≤ b' ∧ b' ≤ 1) :
    let run := fun x ops => answers (eulerParts contPower (idealSource 60) .const (permExTorque pe)
      (fun x (u : List ℝ) w => permExOde pe x (fun i => u.getD i 0) w) none dcY ofDcY) (dcFrame id (dcTq (permExTorque pe)) [0] 1 1)
      (dcResetReport (dcTq (permExTorque pe)) [0]) (1 / 10) limits ⟨0, 0, ⟨0, 0, 3⟩, .four (CFour.new (1 / 10) 0), ()⟩ (.inl (dcY (m := 1) x) :: ops)
    Trio (MixedAnswers (1 / 2) dcOneStates dcOneStates) (run ![w, i] [.inr [a], .inr [b]]) (run ![w', i'] [.inr [a'], .inr [b']])
      (run ![mixed (1 / 2) w w', mixed (1 / 2) i i'] [.inr [mixed (1 / 2) a a'], .inr [mixed (1 / 2) b b']]) := by
  intro run
  have act := (c142_actions (1 / 2) (by norm_num) (by norm_num)).2.1
  refine (((c142_dc pe ⟨1, 1, 1, 1, 1⟩ contPower (·.length = 1) (idealSource 60) limits 60 ⟨fun _ _ _ => rfl, fun _ => rfl⟩).1 fourDuty).1 hl).1
    (1 / 2) (1 / 10) 0 none none none _ _ _ ![w, i] ![w', i'] _ _ _ _ (c138_converters _).2.2.2.2.1 (c138_converters _).2.2.2.2.1
    (c138_converters _).2.2.2.2.1 (by norm_num) rfl rfl ⟨fun j => ?_, fun _ h => h.elim⟩
    (.cons (.step (act a a' ha ha')) (.cons (.step (act b b' hb hb')) .nil))
  fin_cases j <;> rfl

/-! ## Three-phase motors -/

/-- speed and angle -/
def speedAngle {m : ℕ} (j : Fin (1 + m)) : Prop := (j : ℕ) = 0 ∨ (j : ℕ) = m

theorem t23_mixed {lam : ℝ} {a b c : Fin 3 → ℝ} (h : ∀ k, c k = mixed lam (a k) (b k)) (k : Fin 2) : t23 c k = mixed lam (t23 a k) (t23 b k) := by
  fin_cases k <;> simp [t23, Matrix.mulVec, dotProduct, Fin.sum_univ_succ, h, mixed] <;> ring

theorem t32_mixed {lam : ℝ} {a b c : Fin 2 → ℝ} (h : ∀ k, c k = mixed lam (a k) (b k)) (k : Fin 3) : t32 c k = mixed lam (t32 a k) (t32 b k) := by
  fin_cases k <;> simp [t32, Matrix.mulVec, dotProduct, Fin.sum_univ_succ, h, mixed] <;> ring

theorem q_mixed {lam : ℝ} {a b c : Fin 2 → ℝ} (h : ∀ k, c k = mixed lam (a k) (b k)) (e : ℝ) (k : Fin 2) : q c e k = mixed lam (q a e k) (q b e k) := by
  fin_cases k <;> simp [q, h, mixed] <;> ring

theorem dqToAbc_mixed {lam : ℝ} {a b c : Fin 2 → ℝ} (h : ∀ k, c k = mixed lam (a k) (b k)) (e : ℝ) (k : Fin 3) :
    dqToAbc c e k = mixed lam (dqToAbc a e k) (dqToAbc b e k) := t32_mixed (q_mixed h e) k

theorem abcToDq_mixed {lam : ℝ} {a b c : Fin 3 → ℝ} (h : ∀ k, c k = mixed lam (a k) (b k)) (e : ℝ) (k : Fin 2) :
    abcToDq c e k = mixed lam (abcToDq a e k) (abcToDq b e k) := q_mixed (t23_mixed h) (-e) k

/-- The phases of a vector of length at most 1 lie within the action space. -/
theorem dqToAbc_box {d u : ℝ} (h : d ^ 2 + u ^ 2 ≤ 1) (e : ℝ) (k : Fin 3) : -1 ≤ dqToAbc ![d, u] e k ∧ dqToAbc ![d, u] e k ≤ 1 := by
  rw [← abs_le]
  refine abs_le_of_sq_le_sq ?_ zero_le_one
  have s3 : (√3 : ℝ) ^ 2 = 3 := Real.sq_sqrt (by norm_num)
  have cs := Real.sin_sq_add_cos_sq e
  obtain ⟨x, hx⟩ : ∃ x, x = Real.cos e * d - Real.sin e * u := ⟨_, rfl⟩
  obtain ⟨y, hy⟩ : ∃ y, y = Real.sin e * d + Real.cos e * u := ⟨_, rfl⟩
  have n : x ^ 2 + y ^ 2 ≤ 1 := by
    have : x ^ 2 + y ^ 2 = (Real.sin e ^ 2 + Real.cos e ^ 2) * (d ^ 2 + u ^ 2) := by rw [hx, hy]; ring
    rw [this, cs, one_mul]
    exact h
  fin_cases k <;> simp [-sq_le_one_iff_abs_le_one, dqToAbc, t32, q, Matrix.mulVec, dotProduct, Fin.sum_univ_succ, ← hx, ← hy]
  · nlinarith [sq_nonneg y]
  · nlinarith [sq_nonneg (√3 * x + y)]
  · nlinarith [sq_nonneg (√3 * x - y)]

/-- all states of PMSM and SynRM systems but the torque -/
def syncLinear : List String := ["omega", "i_a", "i_b", "i_c", "i_sd", "i_sq", "u_a", "u_b", "u_c", "u_sd", "u_sq", "epsilon", "u_sup"]

theorem sync_mixed {lam om om' om'' T T' T'' e v : ℝ} {i i' i'' w w' w'' : Fin 3 → ℝ} {idq idq' idq'' udq udq' udq'' : Fin 2 → ℝ}
    (ho : om'' = mixed lam om om') (hi : ∀ k, i'' k = mixed lam (i k) (i' k)) (hd : ∀ k, idq'' k = mixed lam (idq k) (idq' k))
    (hw : ∀ k, w'' k = mixed lam (w k) (w' k)) (hu : ∀ k, udq'' k = mixed lam (udq k) (udq' k)) :
    MixedReports lam syncStates syncLinear (.ok ([om] ++ [T] ++ l3 i ++ l2 idq ++ List.ofFn w ++ l2 udq ++ [e] ++ [v]))
      (.ok ([om'] ++ [T'] ++ l3 i' ++ l2 idq' ++ List.ofFn w' ++ l2 udq' ++ [e] ++ [v]))
      (.ok ([om''] ++ [T''] ++ l3 i'' ++ l2 idq'' ++ List.ofFn w'' ++ l2 udq'' ++ [e] ++ [v])) := by
  refine ⟨_, _, _, rfl, rfl, rfl, by simp [syncStates_eq, l3, l2], by simp [syncStates_eq, l3, l2], by simp [syncStates_eq, l3, l2], fun n hn => ?_⟩
  simp only [syncLinear, List.mem_cons, List.not_mem_nil, or_false] at hn
  rcases hn with rfl | rfl | rfl | rfl | rfl | rfl | rfl | rfl | rfl | rfl | rfl | rfl | rfl <;>
    simp [syncStates_eq, readState, l3, l2, ho, hi, hd, hw, hu, mixed_self]

theorem sync_currents {lam : ℝ} {x y z : Fin (1 + 3) → ℝ} (h : Mix lam speedAngle x y z) (k : Fin 2) :
    (![z 1, z 2] : Fin 2 → ℝ) k = mixed lam ((![x 1, x 2] : Fin 2 → ℝ) k) ((![y 1, y 2] : Fin 2 → ℝ) k) := by
  fin_cases k
  · exact h.1 1
  · exact h.1 2

theorem sync_linear {A : Type} (mp : SyncParams ℝ) {torque : (Fin 3 → ℝ) → ℝ} {ode : (Fin 3 → ℝ) → (Fin 2 → ℝ) → ℝ → Fin 3 → ℝ}
    (hm : ode = syncOde (pmsmConstants mp) ∨ ode = syncOde (synrmConstants mp)) {f : Frame ℝ SyncY (Fin 2 → ℝ) A} (hf : LikeSync (syncTq torque) f)
    {legal : A → Prop} {out : A → Fin 3 → ℝ} {asked : ℝ → A → A → A → Prop} (ha : ∀ lam x y z a b c, Mix lam speedAngle x y z → asked lam a b c →
      MixedActions lam legal out (f.action (syncY x) a) (f.action (syncY y) b) (f.action (syncY z) c)) :
    LinearFrame torque ode .const legal out f (syncReset (syncTq torque)) syncY speedAngle asked syncStates syncLinear := by
  have eps : ∀ {lam} {x y z : Fin (1 + 3) → ℝ}, Mix lam speedAngle x y z → y 3 = x 3 ∧ z 3 = x 3 := fun h => mix_speed (same := speedAngle) (j := 3) (.inr rfl) h
  refine ⟨ha, fun x => ⟨dqToAbc ![x 1, x 2] (x 3), ?_⟩, fun lam x y z w w' w'' h hw => ?_, fun lam x y z x' y' z' w w' w'' v h h' hw => ?_,
    fun lam x y z w v h => ?_⟩
  · rw [hf.iIn]
    exact l3_ofFn _
  · obtain ⟨e1, e2⟩ := eps h
    refine ⟨abcToDq w (x 3), abcToDq w' (x 3), abcToDq w'' (x 3), ?_, ?_, ?_, fun x' y' z' h' => ?_⟩
    · rw [hf.lastU]
      simp only [syncFrame, three_ofFn]
      rfl
    · rw [hf.lastU, ← e1]
      simp only [syncFrame, three_ofFn]
      rfl
    · rw [hf.lastU, ← e2]
      simp only [syncFrame, three_ofFn]
      rfl
    · have hu := abcToDq_mixed hw (x 3)
      generalize abcToDq w (x 3) = u at hu ⊢
      generalize abcToDq w' (x 3) = u' at hu ⊢
      generalize abcToDq w'' (x 3) = u'' at hu ⊢
      obtain ⟨a1, a2⟩ : y' 0 = x' 0 ∧ z' 0 = x' 0 := mix_speed (same := speedAngle) (j := 0) (.inl rfl) h'
      have h1 := h'.1 1
      have h2 := h'.1 2
      refine core_mix (fun j => ?_) fun j hj => ?_
      · rcases hm with rfl | rfl <;> simp only [pmsm_ode, synrm_ode] <;> fin_cases j <;> simp [a1, a2, h1, h2, hu, mixed] <;> ring
      · rcases hm with rfl | rfl <;> simp only [pmsm_ode, synrm_ode] <;> fin_cases j <;>
          first
            | (simp [a1]; done)
            | exact absurd hj (by simp [speedAngle])
  · obtain ⟨e1, e2⟩ := eps h
    obtain ⟨e1', e2'⟩ := eps h'
    rw [hf.report]
    simp only [syncFrame, three_ofFn, Except.map, syncY, e1, e2, e1', e2']
    exact sync_mixed (h'.1 0) (dqToAbc_mixed (sync_currents h') _) (sync_currents h') hw (abcToDq_mixed hw _)
  · obtain ⟨e1, e2⟩ := eps h
    simp only [syncReset, three_ofFn, Except.map, syncY, e1, e2]
    exact sync_mixed (h.1 0) (dqToAbc_mixed (sync_currents h) _) (sync_currents h) (fun k => (mixed_self _ _).symm) (fun k => (mixed_self _ _).symm)

theorem back_sync (x : Fin (1 + 3) → ℝ) : ofSyncY (syncY x) = x := by
  funext i
  fin_cases i <;> rfl

/-- Actions in field coordinates: vectors of length at most 1 and their mixture. -/
def MixedVectors (lam : ℝ) (a b c : List ℝ) : Prop :=
  0 ≤ lam ∧ lam ≤ 1 ∧ ∃ d q d' q', d ^ 2 + q ^ 2 ≤ 1 ∧ d' ^ 2 + q' ^ 2 ≤ 1 ∧ a = [d, q] ∧ b = [d', q'] ∧ c = [mixed lam d d', mixed lam q q']

/-- C142 for PMSM and SynRM: all states but the torque, with actions for the phases or (continuous bridge) in field coordinates. -/
theorem c142_sync (mp : SyncParams ℝ) {P : Type} (src : Source P) (limits : List ℝ) (v : ℝ) (hv : FixedVoltage src v) (hl : limits.length = 14)
    (torque : (Fin 3 → ℝ) → ℝ) (ode : (Fin 3 → ℝ) → (Fin 2 → ℝ) → ℝ → Fin 3 → ℝ)
    (hm : torque = pmsmTorque mp ∧ ode = syncOde (pmsmConstants mp) ∨ torque = synrmTorque mp ∧ ode = syncOde (synrmConstants mp)) :
    (∀ {A C : Type} (pw : Power A C) (legal : A → Prop) (out : A → Fin 3 → ℝ) (f : Frame ℝ SyncY (Fin 2 → ℝ) A),
      LikeSync (syncTq torque) f → (∀ y a, f.action y a = a) →
      Superposes pw out legal src .const torque ode syncY ofSyncY f (syncReset (syncTq torque)) limits speedAngle
        (fun lam => MixedActions lam legal out) syncStates syncLinear) ∧
    Superposes contPower b6Duty (·.length = 3) src .const torque ode syncY ofSyncY (syncFrame (syncTq torque) true) (syncReset (syncTq torque)) limits
      speedAngle MixedVectors syncStates syncLinear := by
  have hm' : ode = syncOde (pmsmConstants mp) ∨ ode = syncOde (synrmConstants mp) := hm.imp (·.2) (·.2)
  refine ⟨fun pw legal out f hf hact => superposes_of (sync_linear mp hm' hf fun lam x y z a b c _ h => ?_) trivial hv hl back_sync,
    superposes_of (sync_linear (f := syncFrame (syncTq torque) true) mp hm' ⟨rfl, rfl, rfl, rfl⟩ fun lam x y z a b c h hc => ?_) trivial hv hl back_sync⟩
  · rw [hact, hact, hact]
    exact h
  · obtain ⟨h0, h1, d, u, d', u', n, n', rfl, rfl, rfl⟩ := hc
    obtain ⟨e1, e2⟩ : y 3 = x 3 ∧ z 3 = x 3 := mix_speed (same := speedAngle) (j := 3) (.inr rfl) h
    have key := (c142_actions lam h0 h1).2.2.2.1 _ _ (dqToAbc_box n (x 3)) (dqToAbc_box n' (x 3))
    have em : (fun k => mixed lam (dqToAbc ![d, u] (x 3) k) (dqToAbc ![d', u'] (x 3) k)) = dqToAbc ![mixed lam d d', mixed lam u u'] (x 3) := by
      funext k
      refine (dqToAbc_mixed (fun k => ?_) _ k).symm
      fin_cases k <;> rfl
    rw [em] at key
    simp only [syncFrame, if_true, syncY, e1, e2, l3_ofFn]
    exact key

/-- all states of EESM systems but the torque -/
def eesmLinear : List String :=
  ["omega", "i_a", "i_b", "i_c", "i_sd", "i_sq", "i_e", "u_a", "u_b", "u_c", "u_sd", "u_sq", "u_e", "epsilon", "u_sup"]

theorem eesm_mixed {lam om om' om'' T T' T'' ie ie' ie'' r r' r'' s s' s'' t t' t'' e v : ℝ} {i i' i'' w w' w'' : Fin 3 → ℝ} {idq idq' idq'' : Fin 2 → ℝ}
    (ho : om'' = mixed lam om om') (hi : ∀ k, i'' k = mixed lam (i k) (i' k)) (hd : ∀ k, idq'' k = mixed lam (idq k) (idq' k))
    (he : ie'' = mixed lam ie ie') (hw : ∀ k, w'' k = mixed lam (w k) (w' k)) (hr : r'' = mixed lam r r') (hs : s'' = mixed lam s s')
    (ht : t'' = mixed lam t t') :
    MixedReports lam eesmStates eesmLinear (.ok ([om] ++ [T] ++ l3 i ++ l2 idq ++ [ie] ++ List.ofFn w ++ [r, s, t] ++ [e] ++ [v]))
      (.ok ([om'] ++ [T'] ++ l3 i' ++ l2 idq' ++ [ie'] ++ List.ofFn w' ++ [r', s', t'] ++ [e] ++ [v]))
      (.ok ([om''] ++ [T''] ++ l3 i'' ++ l2 idq'' ++ [ie''] ++ List.ofFn w'' ++ [r'', s'', t''] ++ [e] ++ [v])) := by
  refine ⟨_, _, _, rfl, rfl, rfl, by simp [eesmStates_eq, l3, l2], by simp [eesmStates_eq, l3, l2], by simp [eesmStates_eq, l3, l2], fun n hn => ?_⟩
  simp only [eesmLinear, List.mem_cons, List.not_mem_nil, or_false] at hn
  rcases hn with rfl | rfl | rfl | rfl | rfl | rfl | rfl | rfl | rfl | rfl | rfl | rfl | rfl | rfl | rfl <;>
    simp [eesmStates_eq, readState, l3, l2, ho, hi, hd, he, hw, hr, hs, ht, mixed_self]

theorem eesm_ode_mixed (ee : EesmParams ℝ) {lam w : ℝ} {x y z : Fin 4 → ℝ} {u u' u'' : Fin 3 → ℝ} (h0 : z 0 = mixed lam (x 0) (y 0))
    (h1 : z 1 = mixed lam (x 1) (y 1)) (h2 : z 2 = mixed lam (x 2) (y 2)) (hu : ∀ k, u'' k = mixed lam (u k) (u' k)) (j : Fin 4) :
    eesmOde ee z u'' w j = mixed lam (eesmOde ee x u w j) (eesmOde ee y u' w j) := by
  have hv : (![w, z 0, z 1, z 2, u'' 0, u'' 1, u'' 2, w * z 0, w * z 1, w * z 2] : Fin 10 → ℝ) =
      (1 - lam) • ![w, x 0, x 1, x 2, u 0, u 1, u 2, w * x 0, w * x 1, w * x 2] +
        lam • ![w, y 0, y 1, y 2, u' 0, u' 1, u' 2, w * y 0, w * y 1, w * y 2] := by
    rw [h0, h1, h2, hu, hu, hu]
    unfold mixed
    funext k
    fin_cases k <;> simp <;> ring
  unfold eesmOde
  rw [hv, Matrix.mulVec_add, Matrix.mulVec_smul, Matrix.mulVec_smul]
  rfl

theorem eesm_angle (ee : EesmParams ℝ) (x : Fin 4 → ℝ) (u : Fin 3 → ℝ) (w : ℝ) : eesmOde ee x u w 3 = ee.p * w := by
  simp [eesmOde, eesmConstants, rowsDiv, Matrix.mulVec, dotProduct, Fin.sum_univ_succ]

theorem eesm_linear {A : Type} (ee : EesmParams ℝ) {f : Frame ℝ EesmY (List ℝ) A} (hf : LikeEesm (eesmTq ee) f) {legal : A → Prop} {out : A → Fin (3 + 1) → ℝ} :
    LinearFrame (eesmTorque ee) (fun x (u : List ℝ) w => eesmOde ee x (fun i => u.getD i 0) w) .const legal out f (eesmReset (eesmTq ee)) eesmY speedAngle
      (fun lam => MixedActions lam legal out) eesmStates eesmLinear := by
  have eps : ∀ {lam} {x y z : Fin (1 + 4) → ℝ}, Mix lam speedAngle x y z → y 4 = x 4 ∧ z 4 = x 4 := fun h => mix_speed (same := speedAngle) (j := 4) (.inr rfl) h
  have cur : ∀ {lam} {x y z : Fin (1 + 4) → ℝ}, Mix lam speedAngle x y z → ∀ k,
      (![z 1, z 2] : Fin 2 → ℝ) k = mixed lam ((![x 1, x 2] : Fin 2 → ℝ) k) ((![y 1, y 2] : Fin 2 → ℝ) k) := fun h k => by
    fin_cases k
    · exact h.1 1
    · exact h.1 2
  refine ⟨fun lam x y z a b c _ h => by rw [hf.action, hf.action, hf.action]; exact h,
    fun x => ⟨Fin.append (dqToAbc ![x 1, x 2] (x 4)) fun _ : Fin 1 => x 3, ?_⟩, fun lam x y z w w' w'' h hw => ?_,
    fun lam x y z x' y' z' w w' w'' v h h' hw => ?_, fun lam x y z w v h => ?_⟩
  · rw [hf.iIn, List.ofFn_fin_append, ← l3_ofFn]
    rfl
  · obtain ⟨e1, e2⟩ := eps h
    refine ⟨l2 (abcToDq (fun k => w (Fin.castAdd 1 k)) (x 4)) ++ [w 3], l2 (abcToDq (fun k => w' (Fin.castAdd 1 k)) (x 4)) ++ [w' 3],
      l2 (abcToDq (fun k => w'' (Fin.castAdd 1 k)) (x 4)) ++ [w'' 3], ?_, ?_, ?_, fun x' y' z' h' => ?_⟩
    · rw [hf.lastU]
      simp only [eesmFrame, four_parts w, parts_take, parts_drop, three_ofFn]
      rfl
    · rw [hf.lastU, ← e1]
      simp only [eesmFrame, four_parts w', parts_take, parts_drop, three_ofFn]
      rfl
    · rw [hf.lastU, ← e2]
      simp only [eesmFrame, four_parts w'', parts_take, parts_drop, three_ofFn]
      rfl
    · have hu := abcToDq_mixed (fun k : Fin 3 => hw (Fin.castAdd 1 k)) (x 4)
      have h3 := hw 3
      generalize abcToDq (fun k => w (Fin.castAdd 1 k)) (x 4) = u at hu ⊢
      generalize abcToDq (fun k => w' (Fin.castAdd 1 k)) (x 4) = u' at hu ⊢
      generalize abcToDq (fun k => w'' (Fin.castAdd 1 k)) (x 4) = u'' at hu ⊢
      obtain ⟨a1, a2⟩ := mix_speed (same := speedAngle) (j := Fin.castAdd 4 0) (.inl rfl) h'
      refine core_mix (fun j => ?_) fun j hj => ?_
      · rw [a1, a2]
        refine eesm_ode_mixed ee (h'.1 1) (h'.1 2) (h'.1 3) (fun k => ?_) j
        fin_cases k
        · exact hu 0
        · exact hu 1
        · exact h3
      · obtain rfl : j = 3 := by
          rcases hj with hj | hj
          · simp at hj
          · refine Fin.ext ?_
            simp at hj
            show (j : ℕ) = 3
            omega
        rw [eesm_angle, eesm_angle, a1]
  · obtain ⟨e1, e2⟩ := eps h
    obtain ⟨e1', e2'⟩ := eps h'
    have d2 := abcToDq_mixed (fun k : Fin 3 => hw (Fin.castAdd 1 k)) (x 4)
    rw [hf.report]
    simp only [eesmFrame, four_parts w, four_parts w', four_parts w'', parts_take, parts_drop, three_ofFn, Except.map]
    have key := eesm_mixed (T := eesmTq ee (eesmY x')) (T' := eesmTq ee (eesmY y')) (T'' := eesmTq ee (eesmY z')) (h'.1 0)
      (dqToAbc_mixed (cur h') (x 4)) (cur h') (h'.1 3) (fun k : Fin 3 => hw (Fin.castAdd 1 k)) (d2 0) (d2 1) (hw 3) (e := wrap (x' 4)) (v := v)
    simp only [l2, List.append_assoc, List.cons_append, List.nil_append] at key ⊢
    simp only [eesmY, e1, e2, e1', e2'] at key ⊢
    exact key
  · obtain ⟨e1, e2⟩ := eps h
    simp only [eesmReset, four_parts w, parts_take, three_ofFn, Except.map]
    have key := eesm_mixed (T := eesmTq ee (eesmY x)) (T' := eesmTq ee (eesmY y)) (T'' := eesmTq ee (eesmY z)) (h.1 0)
      (dqToAbc_mixed (cur h) (wrapReset (x 4))) (cur h) (h.1 3) (fun k : Fin 3 => (mixed_self lam (w (Fin.castAdd 1 k))).symm)
      (mixed_self lam (w 3)).symm (mixed_self lam (abcToDq (fun k => w (Fin.castAdd 1 k)) (wrapReset (x 4)) 0)).symm
      (mixed_self lam (abcToDq (fun k => w (Fin.castAdd 1 k)) (wrapReset (x 4)) 1)).symm (e := wrapReset (x 4)) (v := v)
    simp only [l2, List.append_assoc, List.cons_append, List.nil_append] at key ⊢
    simp only [eesmY, e1, e2] at key ⊢
    exact key

/-- C142 for the externally excited synchronous motor: all states but the torque. -/
theorem c142_eesm (ee : EesmParams ℝ) {A C P : Type} (pw : Power A C) (legal : A → Prop) (src : Source P) (limits : List ℝ) (v : ℝ)
    (hv : FixedVoltage src v) (hl : limits.length = 16) (out : A → Fin (3 + 1) → ℝ) (f : Frame ℝ EesmY (List ℝ) A) (hf : LikeEesm (eesmTq ee) f) :
    Superposes pw out legal src .const (eesmTorque ee) (fun x (u : List ℝ) w => eesmOde ee x (fun i => u.getD i 0) w) eesmY ofEesmY f
      (eesmReset (eesmTq ee)) limits speedAngle (fun lam => MixedActions lam legal out) eesmStates eesmLinear :=
  superposes_of (eesm_linear ee hf) trivial hv hl fun x => by
    funext i
    fin_cases i <;> rfl

/-- the converters of the EESM: three phases and four quadrants, without interlocking time -/
theorem c142_eesm_converter (tau : ℝ) : SetOnce contMulti [.b6 (CB6.new tau 0), .four (CFour.new tau 0)] tau (·.length = 3 + 1)
    (fun a => Fin.append (b6Duty (a.take 3)) (fourDuty (a.drop 3))) (Fin.append (fun _ : Fin 3 => -1 / 2) fun _ : Fin 1 => 0) := by
  refine ⟨_, _, _, _, contPair_realises (cB6_realises tau 0) (cFour_realises tau 0) (by rintro _ _ ⟨c, rfl, -⟩; rfl) (by rintro _ _ ⟨c, rfl, -⟩; rfl),
    ⟨((), ()), _, _, rfl, ⟨_, rfl, ⟨rfl, rfl⟩, ⟨rfl, rfl⟩, rfl, rfl⟩, ⟨_, rfl, ⟨rfl, rfl⟩, rfl, rfl⟩⟩, fun a ha => ⟨ha, fun δ => ⟨?_, fun o i => ?_⟩⟩, ?_⟩
  · simp only [contPair, pair, smooth, List.cons_append, List.nil_append, sortedSet_twice]
  · have e : ∀ (a : List ℝ) (i : Fin 3 → ℝ), cB6Out tau 0 a i = b6Duty a := fun a i => by
      funext k
      simp only [cB6Out, dead_zero, sub_zero, clip_unit, clip_halfway, b6Duty]
    simp only [contPair, pair, smooth, cfour_out, e]
  · rintro cs δ ⟨c0, c1, rfl, ⟨d0, rfl, -⟩, d1, rfl, -⟩
    rw [List.ofFn_fin_append]
    simp [contMulti, cMultiReset, CConv.reset]
    norm_num

/-- all states of squirrel cage motor systems but the torque and those in field coordinates -/
def scimLinear : List String := ["omega", "i_sa", "i_sb", "i_sc", "u_sa", "u_sb", "u_sc", "epsilon", "u_sup"]

theorem scim_mixed {lam om om' om'' T T' T'' e v : ℝ} {i i' i'' w w' w'' : Fin 3 → ℝ} {idq idq' idq'' udq udq' udq'' : Fin 2 → ℝ}
    (ho : om'' = mixed lam om om') (hi : ∀ k, i'' k = mixed lam (i k) (i' k)) (hw : ∀ k, w'' k = mixed lam (w k) (w' k)) :
    MixedReports lam scimStates scimLinear (.ok ([om] ++ [T] ++ l3 i ++ l2 idq ++ List.ofFn w ++ l2 udq ++ [e] ++ [v]))
      (.ok ([om'] ++ [T'] ++ l3 i' ++ l2 idq' ++ List.ofFn w' ++ l2 udq' ++ [e] ++ [v]))
      (.ok ([om''] ++ [T''] ++ l3 i'' ++ l2 idq'' ++ List.ofFn w'' ++ l2 udq'' ++ [e] ++ [v])) := by
  refine ⟨_, _, _, rfl, rfl, rfl, by simp [scimStates_eq, l3, l2], by simp [scimStates_eq, l3, l2], by simp [scimStates_eq, l3, l2], fun n hn => ?_⟩
  simp only [scimLinear, List.mem_cons, List.not_mem_nil, or_false] at hn
  rcases hn with rfl | rfl | rfl | rfl | rfl | rfl | rfl | rfl | rfl <;> simp [scimStates_eq, readState, l3, l2, ho, hi, hw, mixed_self]

theorem scim_linear {A : Type} (mp : ImParams ℝ) {f : Frame ℝ ImY (Fin 2 → ℝ) A} (hf : LikeScim (imTq mp) f) {legal : A → Prop} {out : A → Fin 3 → ℝ} :
    LinearFrame (imTorque mp) (scimOde mp) .const legal out f (scimReset (imTq mp)) imY speedAngle (fun lam => MixedActions lam legal out)
      scimStates scimLinear := by
  have eps : ∀ {lam} {x y z : Fin (1 + 5) → ℝ}, Mix lam speedAngle x y z → y 5 = x 5 ∧ z 5 = x 5 := fun h => mix_speed (same := speedAngle) (j := 5) (.inr rfl) h
  have cur : ∀ {lam} {x y z : Fin (1 + 5) → ℝ}, Mix lam speedAngle x y z → ∀ k,
      (![z 1, z 2] : Fin 2 → ℝ) k = mixed lam ((![x 1, x 2] : Fin 2 → ℝ) k) ((![y 1, y 2] : Fin 2 → ℝ) k) := fun h k => by
    fin_cases k
    · exact h.1 1
    · exact h.1 2
  refine ⟨fun lam x y z a b c _ h => by rw [hf.action, hf.action, hf.action]; exact h, fun x => ⟨t32 ![x 1, x 2], ?_⟩,
    fun lam x y z w w' w'' h hw => ⟨t23 w, t23 w', t23 w'', ?_, ?_, ?_, fun x' y' z' h' => ?_⟩,
    fun lam x y z x' y' z' w w' w'' v h h' hw => ?_, fun lam x y z w v h => ?_⟩
  · rw [hf.iIn]
    exact l3_ofFn _
  · rw [hf.lastU]
    simp only [scimFrame, three_ofFn]
    rfl
  · rw [hf.lastU]
    simp only [scimFrame, three_ofFn]
    rfl
  · rw [hf.lastU]
    simp only [scimFrame, three_ofFn]
    rfl
  · have hu := t23_mixed hw
    generalize t23 w = u at hu ⊢
    generalize t23 w' = u' at hu ⊢
    generalize t23 w'' = u'' at hu ⊢
    obtain ⟨a1, a2⟩ : y' 0 = x' 0 ∧ z' 0 = x' 0 := mix_speed (same := speedAngle) (j := 0) (.inl rfl) h'
    have h1 := h'.1 1
    have h2 := h'.1 2
    have h3 := h'.1 3
    have h4 := h'.1 4
    refine core_mix (fun j => ?_) fun j hj => ?_
    · fin_cases j <;> simp [scimOde, imOde, imConstants, Matrix.mulVec, dotProduct, Fin.sum_univ_succ, a1, a2, h1, h2, h3, h4, hu, mixed] <;> ring
    · fin_cases j <;>
        first
          | (simp [scimOde, imOde, imConstants, Matrix.mulVec, dotProduct, Fin.sum_univ_succ, a1]; done)
          | exact absurd hj (by simp [speedAngle])
  · obtain ⟨e1', e2'⟩ := eps h'
    rw [hf.report]
    simp only [scimFrame, three_ofFn, Except.map, phases_free, imY, e1', e2']
    exact scim_mixed (h'.1 0) (t32_mixed (cur h')) hw
  · obtain ⟨e1, e2⟩ := eps h
    simp only [scimReset, three_ofFn, Except.map, phases_free, imY, e1, e2]
    exact scim_mixed (h.1 0) (t32_mixed (cur h)) fun k => (mixed_self _ _).symm

/-- C142 for the squirrel cage motor with actions for the phases: all states but the torque and those in field coordinates, which are not linear. -/
theorem c142_scim_partial (mp : ImParams ℝ) {A C P : Type} (pw : Power A C) (legal : A → Prop) (src : Source P) (limits : List ℝ) (v : ℝ)
    (hv : FixedVoltage src v) (hl : limits.length = 14) (out : A → Fin 3 → ℝ) (f : Frame ℝ ImY (Fin 2 → ℝ) A) (hf : LikeScim (imTq mp) f) :
    Superposes pw out legal src .const (imTorque mp) (scimOde mp) imY ofImY f (scimReset (imTq mp)) limits speedAngle
      (fun lam => MixedActions lam legal out) scimStates scimLinear :=
  superposes_of (scim_linear mp hf) trivial hv hl fun x => by
    funext i
    fin_cases i <;> rfl

/-- A PMSM whose rotor turns, with actions in field coordinates: the run with the mean of two actions. -/
example (mp : SyncParams ℝ) (limits : List ℝ) (hl : limits.length = 14) (w e : ℝ) :
    let run := fun x ops => answers (eulerParts contPower (idealSource 400) .const (pmsmTorque mp) (syncOde (pmsmConstants mp)) none syncY ofSyncY)
      (syncFrame (syncTq (pmsmTorque mp)) true) (syncReset (syncTq (pmsmTorque mp))) (1 / 10) limits
      ⟨0, 0, ⟨0, 0, 2⟩, .b6 (CB6.new (1 / 10) 0), ()⟩ (.inl (syncY x) :: ops)
    Trio (MixedAnswers (1 / 2) syncStates syncLinear) (run ![w, 0, 4, e] [.inr [1, 0]]) (run ![w, 2, 0, e] [.inr [0, 1]])
      (run ![w, 1, 2, e] [.inr [1 / 2, 1 / 2]]) := by
  intro run
  refine (c142_sync mp (idealSource 400) limits 400 ⟨fun _ _ _ => rfl, fun _ => rfl⟩ hl _ _ (.inl ⟨rfl, rfl⟩)).2 (1 / 2) (1 / 10) (fun _ => -1 / 2)
    none none none _ _ _ ![w, 0, 4, e] ![w, 2, 0, e] _ _ _ _ (c138_converters _).2.2.2.2.2.1 (c138_converters _).2.2.2.2.2.1 (c138_converters _).2.2.2.2.2.1
    (by norm_num) rfl rfl ⟨fun j => ?_, fun j hj => ?_⟩ (.cons (.step ⟨by norm_num, by norm_num, 1, 0, 0, 1, by norm_num, by norm_num, rfl, rfl, ?_⟩) .nil)
  · fin_cases j <;> simp [mixed] <;> ring
  · fin_cases j <;>
      first
        | rfl
        | exact absurd hj (by simp [speedAngle])
  · norm_num [mixed]

/-- An externally excited synchronous motor, reset once in between. -/
example (ee : EesmParams ℝ) (limits : List ℝ) (hl : limits.length = 16) (w e : ℝ) (a b : Fin 4 → ℝ) (ha : ∀ k, -1 ≤ a k ∧ a k ≤ 1)
    (hb : ∀ k, -1 ≤ b k ∧ b k ≤ 1) :
    let run := fun x (a : Fin 4 → ℝ) => answers (eulerParts contMulti (idealSource 400) .const (eesmTorque ee)
      (fun x (u : List ℝ) w => eesmOde ee x (fun i => u.getD i 0) w) none eesmY ofEesmY) (eesmFrame (eesmTq ee)) (eesmReset (eesmTq ee)) (1 / 10) limits
      ⟨0, 0, ⟨0, 0, 2⟩, [.b6 (CB6.new (1 / 10) 0), .four (CFour.new (1 / 10) 0)], ()⟩ [.inl (eesmY x), .inr (List.ofFn a), .inl (eesmY x), .inr (List.ofFn a)]
    Trio (MixedAnswers (1 / 2) eesmStates eesmLinear) (run ![w, 0, 4, 1, e] a) (run ![w, 2, 0, 3, e] b)
      (run ![w, 1, 2, 2, e] fun k => mixed (1 / 2) (a k) (b k)) := by
  intro run
  have act := (c142_actions (1 / 2) (by norm_num) (by norm_num)).2.2.2.2 a b ha hb
  have start : Mix (N := 1 + 4) (1 / 2) speedAngle ![w, 0, 4, 1, e] ![w, 2, 0, 3, e] ![w, 1, 2, 2, e] := by
    refine ⟨fun j => ?_, fun j hj => ?_⟩
    · fin_cases j <;> simp [mixed] <;> ring
    · fin_cases j <;>
        first
          | rfl
          | exact absurd hj (by simp [speedAngle])
  exact c142_eesm ee contMulti (·.length = 3 + 1) (idealSource 400) limits 400 ⟨fun _ _ _ => rfl, fun _ => rfl⟩ hl _ (eesmFrame (eesmTq ee))
    ⟨rfl, fun _ _ => rfl, rfl, rfl, rfl⟩ (1 / 2) (1 / 10) _ none none none _ _ _ _ _ _ _ _ _ (c142_eesm_converter _) (c142_eesm_converter _)
    (c142_eesm_converter _) (by norm_num) rfl rfl start (.cons (.step act) (.cons (.reset start) (.cons (.step act) .nil)))

/-- A squirrel cage motor with switching states: from the mean of two starts the mean of the currents is reached. -/
example (mp : ImParams ℝ) (limits : List ℝ) (hl : limits.length = 14) (w e : ℝ) (a : ℕ) (ha : a < 8) :
    let run := fun x => answers (eulerParts finitePower (idealSource 400) .const (imTorque mp) (scimOde mp) none imY ofImY)
      (asIs (scimFrame (imTq mp) false)) (scimReset (imTq mp)) (1 / 10) limits ⟨0, 0, ⟨0, 0, 2⟩, .b6 (B6.new (1 / 10) 0), ()⟩ [.inl (imY x), .inr a, .inr a]
    Trio (MixedAnswers (1 / 2) scimStates scimLinear) (run ![w, 0, 4, 1, 1, e]) (run ![w, 2, 0, 3, 1, e]) (run ![w, 1, 2, 2, 1, e]) := by
  intro run
  have act : MixedActions (1 / 2) (· < 8) b6Volt a a a := ⟨ha, ha, ha, fun _ => (mixed_self _ _).symm⟩
  refine c142_scim_partial mp finitePower (· < 8) (idealSource 400) limits 400 ⟨fun _ _ _ => rfl, fun _ => rfl⟩ hl b6Volt (asIs (scimFrame (imTq mp) false))
    ⟨rfl, fun _ _ => rfl, rfl, rfl, rfl⟩ (1 / 2) (1 / 10) _ none none none _ _ _ ![w, 0, 4, 1, 1, e] ![w, 2, 0, 3, 1, e] _ _ _ _ (c138_converters _).2.2.1
    (c138_converters _).2.2.1 (c138_converters _).2.2.1 (by norm_num) rfl rfl ⟨fun j => ?_, fun j hj => ?_⟩ (.cons (.step act) (.cons (.step act) .nil))
  · fin_cases j <;> simp [mixed] <;> ring
  · fin_cases j <;>
      first
        | rfl
        | exact absurd hj (by simp [speedAngle])

/-- The torque of the other motors is not linear: that of the series motor, at the mean of no current and a current of 2. -/
theorem c142_torque_violated (mp : DcParams ℝ) (hm : mp.lePrime ≠ 0) (limits : List ℝ)
    (hl0 : readState dcOneStates limits "torque" ≠ 0) :
    ¬ Superposes contPower fourDuty (·.length = 1) (idealSource 60) .const (seriesTorque mp)
      (fun x (u : List ℝ) w => seriesOde mp x (fun i => u.getD i 0) w) dcY ofDcY (dcFrame id (dcTq (seriesTorque mp)) [0] 1 1)
      (dcResetReport (dcTq (seriesTorque mp)) [0]) limits speedOnly (fun lam => MixedActions lam (·.length = 1) fourDuty) dcOneStates ["torque"] := by
  intro H
  have h := H (1 / 2) 1 0 none none none ⟨0, 0, ⟨0, 0, 1⟩, .four (CFour.new 1 0), ()⟩ ⟨0, 0, ⟨0, 0, 1⟩, .four (CFour.new 1 0), ()⟩
    ⟨0, 0, ⟨0, 0, 1⟩, .four (CFour.new 1 0), ()⟩ ![0, 0] ![0, 2] ![0, 1] [] [] [] (c138_converters 1).2.2.2.2.1 (c138_converters 1).2.2.2.2.1
    (c138_converters 1).2.2.2.2.1 (by norm_num) rfl rfl ⟨fun j => by fin_cases j <;> norm_num [mixed], fun j hj => by rw [hj]; rfl⟩ .nil
  have en : dcOneStates = ["omega", "torque", "i", "u", "u_sup"] := rfl
  have val : ∀ i : ℝ, ∃ l : List ℝ, l.length = 5 ∧ readState dcOneStates l "torque" = mp.lePrime * i * i ∧
      (reset (eulerParts contPower (idealSource 60) .const (seriesTorque mp) (fun x (u : List ℝ) w => seriesOde mp x (fun i => u.getD i 0) w) none dcY ofDcY)
        (dcResetReport (dcTq (seriesTorque mp)) [0]) limits ⟨0, 0, ⟨0, 0, 1⟩, .four (CFour.new 1 0), ()⟩ (dcY (m := 1) ![0, i])).2 =
        divLimits l limits := by
    intro i
    refine ⟨[0, mp.lePrime * i * i, i, 0, 60], rfl, by simp [en, readState], ?_⟩
    simp [reset, eulerParts, idealSource, contPower, CConv.reset, products, dcResetReport, dcY, getE, Bind.bind, Except.bind, Pure.pure, Except.pure,
      List.mapM_cons, List.mapM_nil, dcTq, seriesTorque, dcTorque]
  obtain ⟨a, a1, a2, a3⟩ := val 0
  obtain ⟨b, b1, b2, b3⟩ := val 2
  obtain ⟨c, c1, c2, c3⟩ := val 1
  simp only [answers] at h
  cases h with
  | cons h _ =>
    obtain ⟨o, o', o'', e, e', e'', h⟩ := h
    rw [a3] at e
    rw [b3] at e'
    rw [c3] at e''
    have h := h "torque" (by simp)
    rw [div_reads _ e, div_reads _ e', div_reads _ e'', a2, b2, c2] at h
    unfold mixed at h
    field_simp at h
    norm_num at h

end

end GEM.Props
