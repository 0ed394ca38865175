import Verif.Props.Holding

/-!
# C139: the observation determines the future

Two histories of a drive that end with the same observation have the same continuations.
-/

set_option linter.unusedSectionVars false

namespace GEM.Props

noncomputable section

open GEM GEM.Sys GEM.Conv GEM.Motor GEM.Solver GEM.Load

/-! ## Statement -/

/-- Converters without memory: with the legal actions the only switching time is the end of the step, and the output follows from the action and the
currents, whatever happened before.  `w0` is the output reported by `reset`. -/
def Memoryless {A C : Type} {n : ℕ} (pw : Power A C) (c : C) (legal : A → Prop) (out : A → (Fin n → ℝ) → Fin n → ℝ) (w0 : Fin n → ℝ) : Prop :=
  ∃ (D : Type) (M : Machine D A n) (all : A → Prop) (holds : C → D → Prop), Realises pw M all holds ∧ (∃ δ, holds c δ) ∧
    (∀ a, legal a → all a ∧ ∀ δ, (∃ s, M.times δ a = [s]) ∧ ∀ o i, M.out δ a o i = out a i) ∧ ∀ c δ, holds c δ → (pw.reset c).2 = List.ofFn w0

/-- Two runs of a drive (the same one or two of the same kind): if the last observations of two histories, which begin with a reset, are the same, then
all answers to the same further calls are the same.  `c₀` is the converter as constructed, `legal` are the actions of the user. -/
def ObservationDecides {m : ℕ} {Y U A C P : Type} (pw : Power A C) (c₀ : C) (legal : A → Prop) (src : Source P) (load : AnyLoad)
    (torque : (Fin m → ℝ) → ℝ) (ode : (Fin m → ℝ) → U → ℝ → Fin m → ℝ) (toY : (Fin (1 + m) → ℝ) → Y) (ofY : Y → Fin (1 + m) → ℝ)
    (f : Frame ℝ Y U A) (rep : Y → List ℝ → List ℝ → Except Err (List ℝ)) (limits : List ℝ) : Prop :=
  ∀ (d : ℝ) (scratch scratch' : Option (Fin (1 + m) → ℝ)) (st st' : St ℝ (Euler ℝ (Fin (1 + m) → ℝ)) C P) (x x' : Fin (1 + m) → ℝ)
    (past past' future : List (Y ⊕ A)) (o : List ℝ), st.conv = c₀ → st'.conv = c₀ → st.solver.nsteps ≠ 0 → st'.solver.nsteps = st.solver.nsteps →
    (∀ h ∈ past ++ past' ++ future, (∃ x, h = .inl (toY x)) ∨ ∃ a, h = .inr a ∧ legal a) →
    let p := eulerParts pw src load torque ode scratch toY ofY
    let p' := eulerParts pw src load torque ode scratch' toY ofY
    (answers p f rep d limits st (.inl (toY x) :: past)).getLast? = some (.ok o) →
    (answers p' f rep d limits st' (.inl (toY x') :: past')).getLast? = some (.ok o) →
    answers p f rep d limits (stateAfter p f rep d limits st (.inl (toY x) :: past)) future =
      answers p' f rep d limits (stateAfter p' f rep d limits st' (.inl (toY x') :: past')) future

/-! ## Systems -/

section systems

variable {m n : ℕ} {Y U A C P D : Type} {pw : Power A C} {src : Source P} {torque : (Fin m → ℝ) → ℝ}
  {ode : (Fin m → ℝ) → U → ℝ → Fin m → ℝ} {load : AnyLoad} {scratch scratch' : Option (Fin (1 + m) → ℝ)} {toY : (Fin (1 + m) → ℝ) → Y}
  {ofY : Y → Fin (1 + m) → ℝ} {f : Frame ℝ Y U A} {rep : Y → List ℝ → List ℝ → Except Err (List ℝ)} {limits : List ℝ} {v : ℝ}
  {M : Machine D A n} {all legal asked : A → Prop} {holds : C → D → Prop} {R : (Fin (1 + m) → ℝ) → (Fin (1 + m) → ℝ) → Prop}
  {out : A → (Fin n → ℝ) → Fin n → ℝ} {w0 : Fin n → ℝ}

/-- an observation of the state `z` of the solver -/
def Shown (n : ℕ) (f : Frame ℝ Y U A) (rep : Y → List ℝ → List ℝ → Except Err (List ℝ)) (limits : List ℝ) (toY : (Fin (1 + m) → ℝ) → Y) (v : ℝ)
    (o : List ℝ) (z : Fin (1 + m) → ℝ) : Prop :=
  (∃ x, ∃ w : Fin n → ℝ, ((f.report (toY x) (toY z) (List.ofFn w) [v]).bind fun s => divLimits s limits) = .ok o) ∨
    ∃ w : Fin n → ℝ, ((rep (toY z) (List.ofFn w) [v]).bind fun s => divLimits s limits) = .ok o

/-- What a system shows of its state, and how it goes on with states related by `R`. -/
structure Decides (n : ℕ) (f : Frame ℝ Y U A) (rep : Y → List ℝ → List ℝ → Except Err (List ℝ)) (limits : List ℝ) (toY : (Fin (1 + m) → ℝ) → Y)
    (v : ℝ) (torque : (Fin m → ℝ) → ℝ) (ode : (Fin m → ℝ) → U → ℝ → Fin m → ℝ) (load : AnyLoad) (asked legal : A → Prop)
    (R : (Fin (1 + m) → ℝ) → (Fin (1 + m) → ℝ) → Prop) : Prop where
  refl : ∀ x, R x x
  act : ∀ x x' a, R x x' → f.action (toY x') a = f.action (toY x) a
  ok : ∀ x a, asked a → legal (f.action (toY x) a)
  cur : ∀ x x', R x x' → ∃ i : Fin n → ℝ, f.iIn (toY x) = List.ofFn i ∧ f.iIn (toY x') = List.ofFn i
  last : ∀ x x' (w : Fin n → ℝ), R x x' → ∃ u, f.lastU (toY x) (List.ofFn w) = .ok u ∧ f.lastU (toY x') (List.ofFn w) = .ok u
  flow : ∀ u h x x', R x x' → R (euStep (core torque ode load u) h x) (euStep (core torque ode load u) h x')
  report : ∀ x x' z z' (w : Fin n → ℝ), R x x' → R z z' →
    f.report (toY x') (toY z') (List.ofFn w) [v] = f.report (toY x) (toY z) (List.ofFn w) [v]
  see : ∀ o z z', Shown n f rep limits toY v o z → Shown n f rep limits toY v o z' → R z z'

/-- between two calls -/
structure Between (holds : C → D → Prop) (N : ℕ) (st : St ℝ (Euler ℝ (Fin (1 + m) → ℝ)) C P) : Prop where
  t : st.solver.t = st.t
  steps : st.solver.nsteps = N
  conv : ∃ δ, holds st.conv δ

theorem flow_iterate (h : Decides n f rep limits toY v torque ode load asked legal R) (u : U) (s : ℝ) (k : ℕ) {x x' : Fin (1 + m) → ℝ} (hx : R x x') :
    R ((euStep (core torque ode load u) s)^[k] x) ((euStep (core torque ode load u) s)^[k] x') := by
  induction k generalizing x x' with
  | zero => exact hx
  | succ k ih => exact ih (h.flow u s _ _ hx)

/-- a step of both runs -/
theorem step_together (h : Decides n f rep limits toY v torque ode load asked legal R) (hR : Realises pw M all holds) (hs : load.Static)
    (hv : FixedVoltage src v) (hM : ∀ a, legal a → all a ∧ ∀ δ, (∃ s, M.times δ a = [s]) ∧ ∀ o i, M.out δ a o i = out a i) {N : ℕ} (hN : N ≠ 0)
    {st st' : St ℝ (Euler ℝ (Fin (1 + m) → ℝ)) C P} (hst : Between holds N st) (hst' : Between holds N st') (hx : R st.solver.y st'.solver.y) {a : A}
    (ha : asked a) (d : ℝ) :
    let q := simulate (eulerParts pw src load torque ode scratch toY ofY) f d limits st a
    let q' := simulate (eulerParts pw src load torque ode scratch' toY ofY) f d limits st' a
    Between holds N q.1 ∧ Between holds N q'.1 ∧ R q.1.solver.y q'.1.solver.y ∧ q.2 = q'.2 ∧ ∀ o, q.2 = .ok o → Shown n f rep limits toY v o q.1.solver.y := by
  obtain ⟨h1, h2, δ, h3⟩ := hst
  obtain ⟨h1', h2', δ', h3'⟩ := hst'
  obtain ⟨i, hi, hi'⟩ := h.cur _ _ hx
  obtain ⟨hall, hm⟩ := hM _ (h.ok st.solver.y a ha)
  obtain ⟨u, hu, hu'⟩ := h.last _ _ (fun k => out (f.action (toY st.solver.y) a) i k * v) hx
  obtain ⟨c, p, e1, e2⟩ := simulate_once (ode := ode) (torque := torque) (ofY := ofY) (scratch := scratch) (limits := limits) (d := d) hR hs hv h3 rfl
    hall (hm δ).1 ((hm δ).2 0 i) hi hu (by rw [h2]; exact hN) h1
  obtain ⟨c', p', e1', e2'⟩ := simulate_once (ode := ode) (torque := torque) (ofY := ofY) (scratch := scratch') (limits := limits) (d := d) hR hs hv
    h3' (h.act _ _ a hx) hall (hm δ').1 ((hm δ').2 0 i) hi' hu' (by rw [h2']; exact hN) h1'
  intro q q'
  have eq : q = _ := e2
  have eq' : q' = _ := e2'
  rw [h2] at eq
  rw [h2'] at eq'
  have hflow := flow_iterate h u (d / N) N hx
  refine ⟨by rw [eq]; exact ⟨rfl, rfl, _, e1⟩, by rw [eq']; exact ⟨rfl, rfl, _, e1'⟩, by rw [eq, eq']; exact hflow, ?_, ?_⟩
  · rw [eq, eq']
    simp only
    rw [h.report _ _ _ _ _ hx hflow]
  · rw [eq]
    intro o ho
    exact .inl ⟨_, _, ho⟩

/-- a reset -/
theorem reset_idle (hR : Realises pw M all holds) (hv : FixedVoltage src v) (h0 : ∀ c δ, holds c δ → (pw.reset c).2 = List.ofFn w0) {N : ℕ}
    {st : St ℝ (Euler ℝ (Fin (1 + m) → ℝ)) C P} (hst : Between holds N st) (y : Y) :
    let q := reset (eulerParts pw src load torque ode scratch toY ofY) rep limits st y
    Between holds N q.1 ∧ q.1.solver.y = ofY y ∧ q.2 = (rep y (List.ofFn fun k => w0 k * v) [v]).bind fun s => divLimits s limits := by
  obtain ⟨h1, h2, δ, h3⟩ := hst
  refine ⟨⟨rfl, h2, δ, hR.2 _ _ h3⟩, rfl, ?_⟩
  simp only [reset, eulerParts, hv.2, h0 _ _ h3, products_ofFn]

/-- the state after a history is shown by its last observation -/
theorem shown_last (h : Decides n f rep limits toY v torque ode load asked legal R) (hR : Realises pw M all holds) (hs : load.Static)
    (hv : FixedVoltage src v) (hM : ∀ a, legal a → all a ∧ ∀ δ, (∃ s, M.times δ a = [s]) ∧ ∀ o i, M.out δ a o i = out a i)
    (h0 : ∀ c δ, holds c δ → (pw.reset c).2 = List.ofFn w0) (hb : ∀ x, ofY (toY x) = x) {N : ℕ} (hN : N ≠ 0) (d : ℝ) (x : Fin (1 + m) → ℝ) (past : List (Y ⊕ A))
    (hp : ∀ h ∈ past, (∃ x, h = .inl (toY x)) ∨ ∃ a, h = .inr a ∧ asked a) {st : St ℝ (Euler ℝ (Fin (1 + m) → ℝ)) C P}
    (hn : st.solver.nsteps = N) (hc : ∃ δ, holds st.conv δ) :
    let p := eulerParts pw src load torque ode scratch toY ofY
    let z := stateAfter p f rep d limits st (.inl (toY x) :: past)
    Between holds N z ∧ ∀ o, (answers p f rep d limits st (.inl (toY x) :: past)).getLast? = some (.ok o) → Shown n f rep limits toY v o z.solver.y := by
  intro p z
  have start : ∀ (st : St ℝ (Euler ℝ (Fin (1 + m) → ℝ)) C P) x, st.solver.nsteps = N → (∃ δ, holds st.conv δ) → Between holds N (reset p rep limits st (toY x)).1 ∧
      ∀ o, (reset p rep limits st (toY x)).2 = .ok o → Shown n f rep limits toY v o (reset p rep limits st (toY x)).1.solver.y := by
    rintro st x e ⟨δ, hδ⟩
    refine ⟨⟨rfl, e, δ, hR.2 _ _ hδ⟩, fun o ho => .inr ⟨fun k => w0 k * v, ?_⟩⟩
    have e1 : (reset p rep limits st (toY x)).1.solver.y = x := hb x
    rw [e1, ← ho]
    simp only [p, reset, eulerParts, hv.2, h0 _ _ hδ, products_ofFn]
  induction past using List.reverseRecOn with
  | nil =>
    obtain ⟨g1, g2⟩ := start st x hn hc
    refine ⟨g1, fun o ho => g2 o ?_⟩
    simpa [answers] using ho
  | append_singleton past op ih =>
    obtain ⟨g1, -⟩ := ih fun h hh => hp h (by simp [hh])
    have ez : z = stateAfter p f rep d limits (stateAfter p f rep d limits st (.inl (toY x) :: past)) [op] := by
      rw [← stateAfter_append]
      rfl
    have ea : answers p f rep d limits st (.inl (toY x) :: (past ++ [op])) = answers p f rep d limits st (.inl (toY x) :: past) ++
        answers p f rep d limits (stateAfter p f rep d limits st (.inl (toY x) :: past)) [op] := by
      rw [← answers_append]
      rfl
    rw [ea, ez]
    generalize stateAfter p f rep d limits st (.inl (toY x) :: past) = s at g1
    rcases hp op (by simp) with ⟨x1, rfl⟩ | ⟨a, rfl, ha⟩
    · obtain ⟨k1, k2⟩ := start s x1 g1.steps g1.conv
      refine ⟨k1, fun o ho => k2 o ?_⟩
      rw [show answers p f rep d limits s [.inl (toY x1)] = [(reset p rep limits s (toY x1)).2] from rfl, List.getLast?_concat] at ho
      exact Option.some.inj ho
    · obtain ⟨k1, -, -, -, k2⟩ := step_together (scratch := scratch) (scratch' := scratch) (ofY := ofY) h hR hs hv hM hN g1 g1 (h.refl _) ha d
      refine ⟨k1, fun o ho => k2 o ?_⟩
      rw [show answers p f rep d limits s [.inr a] = [(simulate p f d limits s a).2] from rfl, List.getLast?_concat] at ho
      exact Option.some.inj ho

/-- Histories. -/
theorem observation_decides (h : Decides n f rep limits toY v torque ode load asked legal R) (hs : load.Static) (hv : FixedVoltage src v)
    (hb : ∀ x, ofY (toY x) = x) {c₀ : C} (hm : Memoryless pw c₀ legal out w0) :
    ObservationDecides pw c₀ asked src load torque ode toY ofY f rep limits := by
  obtain ⟨D, M, all, holds, hR, hc, hM, h0⟩ := hm
  intro d scratch scratch' st st' x x' past past' future o e e' hN hn hl p p' ho ho'
  obtain ⟨a1, a2⟩ := shown_last (scratch := scratch) h hR hs hv hM h0 hb hN d x past (fun k hk => hl k (by simp [hk])) (st := st) rfl (by rw [e]; exact hc)
  obtain ⟨b1, b2⟩ := shown_last (scratch := scratch') h hR hs hv hM h0 hb hN d x' past' (fun k hk => hl k (by simp [hk])) (st := st') hn (by rw [e']; exact hc)
  have hx := h.see o _ _ (a2 o ho) (b2 o ho')
  have hf : ∀ k ∈ future, (∃ x, k = .inl (toY x)) ∨ ∃ a, k = .inr a ∧ asked a := fun k hk => hl k (by simp [hk])
  clear hl a2 b2 ho ho'
  change R (stateAfter p f rep d limits st (.inl (toY x) :: past)).solver.y (stateAfter p' f rep d limits st' (.inl (toY x') :: past')).solver.y at hx
  change Between holds _ (stateAfter p f rep d limits st (.inl (toY x) :: past)) at a1
  change Between holds _ (stateAfter p' f rep d limits st' (.inl (toY x') :: past')) at b1
  generalize stateAfter p f rep d limits st (.inl (toY x) :: past) = s at *
  generalize stateAfter p' f rep d limits st' (.inl (toY x') :: past') = s' at *
  induction future generalizing s s' with
  | nil => rfl
  | cons op future ih =>
    have hop := hf op (by simp)
    specialize ih fun k hk => hf k (by simp [hk])
    rcases hop with ⟨x1, rfl⟩ | ⟨a, rfl, ha⟩
    · obtain ⟨i1, i2, i3⟩ := reset_idle (scratch := scratch) (toY := toY) (ofY := ofY) (load := load) (torque := torque) (ode := ode) (rep := rep) (limits := limits) hR hv h0 a1 (toY x1)
      obtain ⟨j1, j2, j3⟩ := reset_idle (scratch := scratch') (toY := toY) (ofY := ofY) (load := load) (torque := torque) (ode := ode) (rep := rep) (limits := limits) hR hv h0 b1 (toY x1)
      simp only [answers]
      rw [show (reset p rep limits s (toY x1)).2 = _ from i3, show (reset p' rep limits s' (toY x1)).2 = _ from j3]
      congr 1
      refine ih _ i1 _ j1 ?_
      change R (ofY (toY x1)) (ofY (toY x1))
      exact h.refl _
    · obtain ⟨k1, k2, k3, k4, -⟩ := step_together (scratch := scratch) (scratch' := scratch') (ofY := ofY) h hR hs hv hM hN a1 b1 hx ha d
      simp only [answers]
      rw [show (simulate p f d limits s a).2 = _ from k4]
      congr 1
      exact ih _ k1 _ k2 k3

end systems

/-! ## Converters -/

/-- half bridge without interlocking time -/
def legNow (a : ℕ) (i : Fin 1 → ℝ) (_ : Fin 1) : ℝ := legOut a (i 0)
/-- two half bridges -/
def fourNow (a : ℕ) (i : Fin 1 → ℝ) (_ : Fin 1) : ℝ := legOut (fourLegs a).1 (i 0) - legOut (fourLegs a).2 (-i 0)
/-- three half bridges -/
def b6Now (a : ℕ) (i : Fin 3 → ℝ) (k : Fin 3) : ℝ := legOut (b6Legs a k) (i k) - 1 / 2
/-- two converters with actions in lists -/
def bothNow {n0 n1 : ℕ} {A A0 A1 : Type} (f0 : A → A0) (f1 : A → A1) (o0 : A0 → (Fin n0 → ℝ) → Fin n0 → ℝ) (o1 : A1 → (Fin n1 → ℝ) → Fin n1 → ℝ) (a : A)
    (i : Fin (n0 + n1) → ℝ) : Fin (n0 + n1) → ℝ :=
  Fin.append (o0 (f0 a) fun k => i (Fin.castAdd n1 k)) (o1 (f1 a) fun k => i (Fin.natAdd n0 k))

theorem fresh_fb6 (tau : ℝ) : ∃ δ, IsFB6 tau 0 (.b6 (B6.new tau 0)) δ :=
  ⟨0, _, rfl, ⟨rfl, rfl, rfl, by simp⟩, ⟨rfl, rfl, rfl, by simp⟩, rfl, rfl, rfl, by simp⟩

theorem four_now (tau : ℝ) (a : ℕ) (δ : ℕ × ℕ) : (fFour tau 0).times δ a = [tau] ∧ ∀ o i, (fFour tau 0).out δ a o i = fourNow a i :=
  ⟨by simp only [fFour, legTimes_zero, List.cons_append, List.nil_append, sortedSet_twice], fun o i => by funext k; simp only [fFour, legNext_zero, fourNow]⟩

theorem b6_now (tau : ℝ) (a : ℕ) (δ : Fin 3 → ℕ) : (fB6 tau 0).times δ a = [tau] ∧ ∀ o i, (fB6 tau 0).out δ a o i = b6Now a i :=
  ⟨by simp only [fB6, legTimes_zero, List.cons_append, List.nil_append, sortedSet_thrice], fun o i => by funext k; simp only [fB6, legNext_zero, b6Now]⟩

/-- The converters without memory: the finite ones without interlocking time, also with open switches, and the continuous ones with any interlocking
time. -/
theorem c139_converters (tau il : ℝ) :
    Memoryless finitePower (.one (OneQC.new tau)) (· < 2) fOneOut 0 ∧
    Memoryless finitePower (.two (TwoQC.new tau 0)) (· < 3) legNow 0 ∧
    Memoryless finitePower (.four (FourQC.new tau 0)) (· < 4) fourNow 0 ∧
    Memoryless finitePower (.b6 (B6.new tau 0)) (· < 8) b6Now (fun _ => -1 / 2) ∧
    Memoryless contPower (.one (COne.new tau)) (·.length = 1) cOneOut 0 ∧
    Memoryless contPower (.two (CTwo.new tau il)) (·.length = 1) (cTwoOut tau il) 0 ∧
    Memoryless contPower (.four (CFour.new tau il)) (·.length = 1) (cFourOut tau il) 0 ∧
    Memoryless contPower (.b6 (CB6.new tau il)) (·.length = 3) (cB6Out tau il) (fun _ => -1 / 2) ∧
    Memoryless finiteMulti [.four (FourQC.new tau 0), .four (FourQC.new tau 0)] (fun a => ∃ x y, a = [x, y] ∧ x < 4 ∧ y < 4)
      (bothNow (·.getD 0 0) (·.getD 1 0) fourNow fourNow) 0 ∧
    Memoryless contMulti [.four (CFour.new tau il), .four (CFour.new tau il)] (·.length = 2)
      (bothNow (·.take 1) (·.drop 1) (cFourOut tau il) (cFourOut tau il)) 0 ∧
    Memoryless finiteMulti [.b6 (B6.new tau 0), .four (FourQC.new tau 0)] (fun a => ∃ x y, a = [x, y] ∧ x < 8 ∧ y < 4)
      (bothNow (·.getD 0 0) (·.getD 1 0) b6Now fourNow) (Fin.append (fun _ : Fin 3 => -1 / 2) fun _ : Fin 1 => 0) ∧
    Memoryless contMulti [.b6 (CB6.new tau il), .four (CFour.new tau il)] (·.length = 3 + 1)
      (bothNow (·.take 3) (·.drop 3) (cB6Out tau il) (cFourOut tau il)) (Fin.append (fun _ : Fin 3 => -1 / 2) fun _ : Fin 1 => 0) := by
  refine ⟨⟨_, _, _, _, fOne_realises tau, ⟨(), _, rfl, rfl⟩, fun a ha => ⟨ha, fun δ => ⟨⟨_, rfl⟩, fun o i => rfl⟩⟩, ?_⟩,
    ⟨_, _, _, _, fTwo_realises tau 0, ⟨0, _, rfl, rfl, rfl, rfl, by norm_num⟩, fun a ha => ⟨ha, fun δ => ⟨⟨_, legTimes_zero _ _ _⟩, fun o i => ?_⟩⟩, ?_⟩,
    ⟨_, _, _, _, fFour_realises tau 0, ⟨_, fresh_ffour tau⟩, fun a ha => ⟨ha, fun δ => ⟨⟨_, (four_now tau a δ).1⟩, (four_now tau a δ).2⟩⟩, fFour_reset⟩,
    ⟨_, _, _, _, fB6_realises tau 0, fresh_fb6 tau, fun a ha => ⟨ha, fun δ => ⟨⟨_, (b6_now tau a δ).1⟩, (b6_now tau a δ).2⟩⟩, ?_⟩,
    ⟨_, _, _, _, cOne_realises tau, ⟨(), _, rfl, rfl⟩, fun a ha => ⟨ha, fun δ => ⟨⟨_, rfl⟩, fun o i => rfl⟩⟩, ?_⟩,
    ⟨_, _, _, _, cTwo_realises tau il, ⟨(), _, rfl, rfl, rfl⟩, fun a ha => ⟨ha, fun δ => ⟨⟨_, rfl⟩, fun o i => rfl⟩⟩, ?_⟩,
    ⟨_, _, _, _, cFour_realises tau il, ⟨(), _, rfl, ⟨rfl, rfl⟩, rfl, rfl⟩, fun a ha => ⟨ha, fun δ => ⟨⟨_, rfl⟩, fun o i => rfl⟩⟩, ?_⟩,
    ⟨_, _, _, _, cB6_realises tau il, ⟨(), _, rfl, ⟨rfl, rfl⟩, ⟨rfl, rfl⟩, rfl, rfl⟩, fun a ha => ⟨ha, fun δ => ⟨⟨_, rfl⟩, fun o i => rfl⟩⟩, ?_⟩,
    ⟨_, _, _, _, finitePair_realises (fFour_realises tau 0) (fFour_realises tau 0) (by rintro _ _ ⟨c, rfl, -⟩; rfl) (by rintro _ _ ⟨c, rfl, -⟩; rfl),
      ⟨(_, _), _, _, rfl, fresh_ffour tau, fresh_ffour tau⟩, fun a ha => ⟨ha, fun δ => ⟨⟨tau, ?_⟩, fun o i => ?_⟩⟩, ?_⟩,
    ⟨_, _, _, _, contPair_realises (cFour_realises tau il) (cFour_realises tau il) (by rintro _ _ ⟨c, rfl, -⟩; rfl) (by rintro _ _ ⟨c, rfl, -⟩; rfl),
      ⟨((), ()), _, _, rfl, ⟨_, rfl, ⟨rfl, rfl⟩, rfl, rfl⟩, ⟨_, rfl, ⟨rfl, rfl⟩, rfl, rfl⟩⟩, fun a ha => ⟨ha, fun δ => ⟨⟨tau, ?_⟩, fun o i => rfl⟩⟩, ?_⟩,
    ⟨_, _, _, _, finitePair_realises (fB6_realises tau 0) (fFour_realises tau 0) (by rintro _ _ ⟨c, rfl, -⟩; rfl) (by rintro _ _ ⟨c, rfl, -⟩; rfl),
      ?_, fun a ha => ⟨ha, fun δ => ⟨⟨tau, ?_⟩, fun o i => ?_⟩⟩, ?_⟩,
    ⟨_, _, _, _, contPair_realises (cB6_realises tau il) (cFour_realises tau il) (by rintro _ _ ⟨c, rfl, -⟩; rfl) (by rintro _ _ ⟨c, rfl, -⟩; rfl),
      ⟨((), ()), _, _, rfl, ⟨_, rfl, ⟨rfl, rfl⟩, ⟨rfl, rfl⟩, rfl, rfl⟩, ⟨_, rfl, ⟨rfl, rfl⟩, rfl, rfl⟩⟩,
      fun a ha => ⟨ha, fun δ => ⟨⟨tau, ?_⟩, fun o i => rfl⟩⟩, ?_⟩⟩
  · rintro c δ ⟨c', rfl, -⟩
    simp [finitePower, FConv.reset, OneQC.reset]
  · funext k
    simp only [fTwo, legNext_zero, legNow]
  · rintro c δ ⟨c', rfl, -⟩
    simp [finitePower, FConv.reset, TwoQC.reset]
  · rintro c δ ⟨c', rfl, -⟩
    simp [finitePower, FConv.reset, B6.reset]
    norm_num
  · rintro c δ ⟨c', rfl, -⟩
    simp [contPower, CConv.reset]
  · rintro c δ ⟨c', rfl, -⟩
    simp [contPower, CConv.reset]
  · rintro c δ ⟨c', rfl, -⟩
    simp [contPower, CConv.reset]
  · rintro c δ ⟨c', rfl, -⟩
    simp [contPower, CConv.reset]
    norm_num
  · simp only [finitePair, pair, (four_now tau _ _).1, List.cons_append, List.nil_append, sortedSet_twice]
  · simp only [finitePair, pair, (four_now tau _ _).2, bothNow]
  · rintro cs δ ⟨c0, c1, rfl, ⟨d0, rfl, -⟩, d1, rfl, -⟩
    simp [finiteMulti, multiReset, FConv.reset, FourQC.reset]
  · simp only [contPair, pair, smooth, List.cons_append, List.nil_append, sortedSet_twice]
  · rintro cs δ ⟨c0, c1, rfl, ⟨d0, rfl, -⟩, d1, rfl, -⟩
    simp [contMulti, cMultiReset, CConv.reset]
  · obtain ⟨δ, h⟩ := fresh_fb6 tau
    exact ⟨(δ, _), _, _, rfl, h, fresh_ffour tau⟩
  · simp only [finitePair, pair, (four_now tau _ _).1, (b6_now tau _ _).1, List.cons_append, List.nil_append, sortedSet_twice]
  · simp only [finitePair, pair, (four_now tau _ _).2, (b6_now tau _ _).2, bothNow]
  · rintro cs δ ⟨c0, c1, rfl, ⟨d0, rfl, -⟩, d1, rfl, -⟩
    rw [List.ofFn_fin_append]
    simp [finiteMulti, multiReset, FConv.reset, FourQC.reset, B6.reset]
    norm_num
  · simp only [contPair, pair, smooth, List.cons_append, List.nil_append, sortedSet_twice]
  · rintro cs δ ⟨c0, c1, rfl, ⟨d0, rfl, -⟩, d1, rfl, -⟩
    rw [List.ofFn_fin_append]
    simp [contMulti, cMultiReset, CConv.reset]
    norm_num

/-! ## DC motors -/

theorem div_reads {s limits o : List ℝ} (names : List String) (h : divLimits s limits = .ok o) (n : String) :
    readState names o n = readState names s n / readState names limits n := by
  unfold divLimits at h
  split_ifs at h
  rw [← Except.ok.inj h, read_div]

theorem dc_decides {m n nV : ℕ} {A : Type} {iIn : List ℝ → List ℝ} {idx : List ℕ} {limits : List ℝ} {v : ℝ} {torque : (Fin m → ℝ) → ℝ} {tq : List ℝ → ℝ}
    {ode : (Fin m → ℝ) → List ℝ → ℝ → Fin m → ℝ} {load : AnyLoad} {legal : A → Prop} (g : List ℝ → Fin (1 + m) → ℝ)
    (hi : ∀ x : Fin (1 + m) → ℝ, ∃ i : Fin n → ℝ, iIn (dcY x).motor = List.ofFn i)
    (h : ∀ o z, Shown (A := A) n (dcFrame iIn tq idx nV 1) (dcResetReport tq idx) limits dcY v o z → z = g o) :
    Decides n (dcFrame iIn tq idx nV 1) (dcResetReport tq idx) limits dcY v torque ode load legal legal Eq where
  refl _ := rfl
  act _ _ _ _ := rfl
  ok _ _ h := h
  cur x x' h := by
    subst h
    obtain ⟨i, hi⟩ := hi x
    exact ⟨i, hi, hi⟩
  last x x' w _ := ⟨_, rfl, rfl⟩
  flow u s x x' h := by rw [h]
  report x x' z z' w h h' := by rw [h, h']
  see o z z' h1 h2 := by rw [h o z h1, h o z' h2]

/-- limits different from zero -/
def NonzeroLimits (names : List String) (limits : List ℝ) (told : List String) : Prop := ∀ n ∈ told, readState names limits n ≠ 0

theorem shown_one {A : Type} {tq : List ℝ → ℝ} {iIn : List ℝ → List ℝ} {limits o : List ℝ} {v : ℝ} {z : Fin (1 + 1) → ℝ}
    (h : Shown (A := A) 1 (dcFrame iIn tq [0] 1 1) (dcResetReport tq [0]) limits dcY v o z) :
    ∃ w, divLimits [z 0, tq (dcY z).motor, z 1, w, v] limits = .ok o := by
  rcases h with ⟨x, w, h⟩ | ⟨w, h⟩
  · exact ⟨w 0, h⟩
  · exact ⟨w 0, h⟩

theorem shown_shunt {A : Type} {tq : List ℝ → ℝ} {iIn : List ℝ → List ℝ} {limits o : List ℝ} {v : ℝ} {z : Fin (1 + 2) → ℝ}
    (h : Shown (A := A) 1 (dcFrame iIn tq [0, 1] 1 1) (dcResetReport tq [0, 1]) limits dcY v o z) :
    ∃ w, divLimits [z 0, tq (dcY z).motor, z 1, z 2, w, v] limits = .ok o := by
  rcases h with ⟨x, w, h⟩ | ⟨w, h⟩
  · exact ⟨w 0, h⟩
  · exact ⟨w 0, h⟩

theorem shown_extEx {A : Type} {tq : List ℝ → ℝ} {iIn : List ℝ → List ℝ} {limits o : List ℝ} {v : ℝ} {z : Fin (1 + 2) → ℝ}
    (h : Shown (A := A) (1 + 1) (dcFrame iIn tq [0, 1] 2 1) (dcResetReport tq [0, 1]) limits dcY v o z) :
    ∃ w w', divLimits [z 0, tq (dcY z).motor, z 1, z 2, w, w', v] limits = .ok o := by
  rcases h with ⟨x, w, h⟩ | ⟨w, h⟩
  · exact ⟨w 0, w 1, h⟩
  · exact ⟨w 0, w 1, h⟩

/-- a state times its limit -/
def unscale (names : List String) (limits o : List ℝ) (n : String) : ℝ := readState names o n * readState names limits n

theorem unscale_eq {names : List String} {limits o s : List ℝ} (h : divLimits s limits = .ok o) {n : String} (hn : readState names limits n ≠ 0) :
    unscale names limits o n = readState names s n := by
  rw [unscale, div_reads names h, div_mul_cancel₀ _ hn]

theorem back_dc {m : ℕ} (x : Fin (1 + m) → ℝ) : ofDcY (dcY x) = x := by
  funext i
  refine Fin.addCases (fun k => ?_) (fun k => ?_) i
  · rw [Subsingleton.elim k 0]
    rfl
  · have h : ((Fin.natAdd 1 k : Fin (1 + m)) : ℕ) = k + 1 := by simp [add_comm]
    unfold ofDcY
    rw [h]
    simp [dcY]

/-- C139 for the DC motors: speed and currents are observed, so that the observation is the state. -/
theorem c139_dc (pe : PermExParams ℝ) (mp : DcParams ℝ) {A C P : Type} (pw : Power A C) (c₀ : C) (legal : A → Prop) (src : Source P) (load : AnyLoad)
    (limits : List ℝ) (v : ℝ) (hs : load.Static) (hv : FixedVoltage src v) :
    (∀ (out : A → (Fin 1 → ℝ) → Fin 1 → ℝ) (w0 : Fin 1 → ℝ), Memoryless pw c₀ legal out w0 →
      (NonzeroLimits dcOneStates limits ["omega", "i"] →
        ObservationDecides pw c₀ legal src load (permExTorque pe) (fun x (u : List ℝ) w => permExOde pe x (fun i => u.getD i 0) w) dcY ofDcY
          (dcFrame id (dcTq (permExTorque pe)) [0] 1 1) (dcResetReport (dcTq (permExTorque pe)) [0]) limits ∧
        ObservationDecides pw c₀ legal src load (seriesTorque mp) (fun x (u : List ℝ) w => seriesOde mp x (fun i => u.getD i 0) w) dcY ofDcY
          (dcFrame id (dcTq (seriesTorque mp)) [0] 1 1) (dcResetReport (dcTq (seriesTorque mp)) [0]) limits) ∧
      (NonzeroLimits shuntStates limits ["omega", "i_a", "i_e"] →
        ObservationDecides pw c₀ legal src load (dcTorque mp) (fun x (u : List ℝ) w => shuntOde mp x (fun i => u.getD i 0) w) dcY ofDcY
          (dcFrame (fun l => [l.getD 0 0 + l.getD 1 0]) (dcTq (dcTorque mp)) [0, 1] 1 1) (dcResetReport (dcTq (dcTorque mp)) [0, 1]) limits)) ∧
    ∀ (out : A → (Fin (1 + 1) → ℝ) → Fin (1 + 1) → ℝ) (w0 : Fin (1 + 1) → ℝ), Memoryless pw c₀ legal out w0 →
      NonzeroLimits extExStates limits ["omega", "i_a", "i_e"] →
        ObservationDecides pw c₀ legal src load (dcTorque mp) (fun x (u : List ℝ) w => dcOde mp x (fun i => u.getD i 0) w) dcY ofDcY
          (dcFrame id (dcTq (dcTorque mp)) [0, 1] 2 1) (dcResetReport (dcTq (dcTorque mp)) [0, 1]) limits := by
  have e1 : dcOneStates = ["omega", "torque", "i", "u", "u_sup"] := rfl
  have e2 : shuntStates = ["omega", "torque", "i_a", "i_e", "u", "u_sup"] := rfl
  have e3 : extExStates = ["omega", "torque", "i_a", "i_e", "u_a", "u_e", "u_sup"] := rfl
  have one : NonzeroLimits dcOneStates limits ["omega", "i"] → ∀ (tq : List ℝ → ℝ) o (z : Fin (1 + 1) → ℝ),
      Shown (A := A) 1 (dcFrame id tq [0] 1 1) (dcResetReport tq [0]) limits dcY v o z →
      z = ![unscale dcOneStates limits o "omega", unscale dcOneStates limits o "i"] := by
    intro hl tq o z h
    obtain ⟨w, h⟩ := shown_one h
    rw [unscale_eq h (hl _ (by simp)), unscale_eq h (hl _ (by simp))]
    funext k
    fin_cases k <;> simp [e1, readState]
  refine ⟨fun out w0 hm => ⟨fun hl => ⟨?_, ?_⟩, fun hl => ?_⟩, fun out w0 hm hl => ?_⟩
  · exact observation_decides (dc_decides _ (fun x => ⟨fun i => x (Fin.natAdd 1 i), rfl⟩) (one hl _)) hs hv back_dc hm
  · exact observation_decides (dc_decides _ (fun x => ⟨fun i => x (Fin.natAdd 1 i), rfl⟩) (one hl _)) hs hv back_dc hm
  · refine observation_decides (dc_decides (fun o => ![unscale shuntStates limits o "omega", unscale shuntStates limits o "i_a",
      unscale shuntStates limits o "i_e"]) (fun x => ⟨fun _ => (dcY x).motor.getD 0 0 + (dcY x).motor.getD 1 0, by simp⟩) fun o z h => ?_) hs hv back_dc hm
    obtain ⟨w, h⟩ := shown_shunt h
    rw [unscale_eq h (hl _ (by simp)), unscale_eq h (hl _ (by simp)), unscale_eq h (hl _ (by simp))]
    funext k
    fin_cases k <;> simp [e2, readState]
  · refine observation_decides (dc_decides (fun o => ![unscale extExStates limits o "omega", unscale extExStates limits o "i_a",
      unscale extExStates limits o "i_e"]) (fun x => ⟨fun i => x (Fin.natAdd 1 i), rfl⟩) fun o z h => ?_) hs hv back_dc hm
    obtain ⟨w, w', h⟩ := shown_extEx h
    rw [unscale_eq h (hl _ (by simp)), unscale_eq h (hl _ (by simp)), unscale_eq h (hl _ (by simp))]
    funext k
    fin_cases k <;> simp [e3, readState]

/-- A permanently excited motor with a four quadrant converter: it does not matter that the second run began elsewhere. -/
example (pe : PermExParams ℝ) (d : ℝ) (ops : List ℕ) (h : ∀ a ∈ ops, a < 4) :
    let p := eulerParts finitePower (idealSource 60) (.poly 0 1 0 1 1 []) (permExTorque pe) (fun x (u : List ℝ) w => permExOde pe x (fun i => u.getD i 0) w)
      none dcY ofDcY
    let f := dcFrame (A := ℕ) id (dcTq (permExTorque pe)) [0] 1 1
    let rep := dcResetReport (dcTq (permExTorque pe)) [0]
    let st : St ℝ (Euler ℝ (Fin (1 + 1) → ℝ)) (FConv ℝ) Unit := ⟨0, 0, ⟨0, 0, 3⟩, .four (FourQC.new d 0), ()⟩
    answers p f rep d [10, 10, 10, 10, 10] (stateAfter p f rep d [10, 10, 10, 10, 10] st [.inl (dcY (m := 1) ![1, 2])]) (ops.map .inr) =
      answers p f rep d [10, 10, 10, 10, 10] (stateAfter p f rep d [10, 10, 10, 10, 10] st [.inl (dcY (m := 1) ![5, -3]), .inl (dcY (m := 1) ![1, 2])])
        (ops.map .inr) := by
  intro p f rep st
  refine (((c139_dc pe ⟨1, 1, 1, 1, 1⟩ finitePower (.four (FourQC.new d 0)) (· < 4) (idealSource 60) (.poly 0 1 0 1 1 []) [10, 10, 10, 10, 10] 60 trivial
    ⟨fun _ _ _ => rfl, fun _ => rfl⟩).1 _ _ (c139_converters d 0).2.2.1).1 ?_).1 d none none st st ![1, 2] ![5, -3] [] [.inl (dcY (m := 1) ![1, 2])]
    (ops.map .inr) (List.zipWith (· / ·) [1, pe.psiE * 2, 2, 0 * 60, 60] [10, 10, 10, 10, 10]) rfl rfl (by simp [st]) rfl ?_ rfl rfl
  · intro n hn
    have e : dcOneStates = ["omega", "torque", "i", "u", "u_sup"] := rfl
    fin_cases hn <;> simp [e, readState]
  · intro k hk
    simp only [List.nil_append, List.cons_append, List.mem_cons, List.mem_map] at hk
    rcases hk with rfl | ⟨a, ha, rfl⟩
    · exact .inl ⟨_, rfl⟩
    · exact .inr ⟨a, rfl, h a ha⟩

/-! ## Synchronous motors -/

/-- the same up to full turns of the rotor -/
def SameUpToTurns {m : ℕ} (j : Fin m) (x x' : Fin (1 + m) → ℝ) : Prop :=
  (∀ i, i ≠ Fin.natAdd 1 j → x' i = x i) ∧ ∃ k : ℤ, x' (Fin.natAdd 1 j) = x (Fin.natAdd 1 j) + 2 * Real.pi * k

theorem wrap_periodic (e : ℝ) (k : ℤ) : wrap (e + 2 * Real.pi * k) = wrap e := by
  have hp := Real.two_pi_pos.ne'
  have h : ⌊(e + 2 * Real.pi * k) / (2 * Real.pi)⌋ = ⌊e / (2 * Real.pi)⌋ + k := by
    rw [add_div, mul_div_cancel_left₀ _ hp, Int.floor_add_intCast]
  have h2 : e + 2 * Real.pi * k - 2 * Real.pi * ((⌊e / (2 * Real.pi)⌋ + k : ℤ) : ℝ) = e - 2 * Real.pi * ⌊e / (2 * Real.pi)⌋ := by
    push_cast
    ring
  unfold wrap
  rw [h, h2]

/-- The equations of motors whose angle has no influence keep this relation. -/
theorem turns_flow {m : ℕ} {U : Type} {torque : (Fin m → ℝ) → ℝ} {ode : (Fin m → ℝ) → U → ℝ → Fin m → ℝ} {load : AnyLoad} {j : Fin m}
    (ht : ∀ z z' : Fin m → ℝ, (∀ i, i ≠ j → z' i = z i) → torque z' = torque z)
    (ho : ∀ (z z' : Fin m → ℝ) u w, (∀ i, i ≠ j → z' i = z i) → ode z' u w = ode z u w) (u : U) (h : ℝ) (x x' : Fin (1 + m) → ℝ)
    (hx : SameUpToTurns j x x') : SameUpToTurns j (euStep (core torque ode load u) h x) (euStep (core torque ode load u) h x') := by
  obtain ⟨h1, k, h2⟩ := hx
  have hm : ∀ i, i ≠ j → x' (Fin.natAdd 1 i) = x (Fin.natAdd 1 i) := fun i hi => h1 _ fun e => hi (Fin.natAdd_inj 1 |>.1 e)
  have h0 : x' (Fin.castAdd m 0) = x (Fin.castAdd m 0) := h1 _ fun e => by
    have := congrArg Fin.val e
    simp at this
    omega
  have hc : core torque ode load u x' = core torque ode load u x := by
    unfold core
    rw [h0, ht _ _ hm, ho (fun i => x (Fin.natAdd 1 i)) (fun i => x' (Fin.natAdd 1 i)) _ _ hm]
  refine ⟨fun i hi => ?_, k, ?_⟩
  · simp only [euStep, hc, Pi.add_apply, h1 i hi]
  · simp only [euStep, hc, Pi.add_apply, h2]
    ring

theorem shown_sync {A : Type} {tq : SyncY → ℝ} {f : Frame ℝ SyncY (Fin 2 → ℝ) A} (hf : LikeSync tq f) {limits o : List ℝ} {v : ℝ} {z : Fin (1 + 3) → ℝ}
    (h : Shown 3 f (syncReset tq) limits syncY v o z) :
    ∃ T i w udq e, divLimits ([z 0] ++ [T] ++ l3 i ++ l2 ![z 1, z 2] ++ l3 w ++ l2 udq ++ [e] ++ [v]) limits = .ok o ∧ ∃ k : ℤ, e = z 3 + 2 * Real.pi * k := by
  rcases h with ⟨x, w, h⟩ | ⟨w, h⟩
  · rw [hf.report] at h
    simp only [syncFrame, three_ofFn, Except.map, Except.bind] at h
    obtain ⟨k, hk⟩ := wrap_turns (z 3)
    rw [← l3_ofFn] at h
    exact ⟨_, _, _, _, _, h, k, hk⟩
  · simp only [syncReset, three_ofFn, Except.map, Except.bind] at h
    obtain ⟨k, hk⟩ := wrapReset_turns (z 3)
    rw [← l3_ofFn] at h
    exact ⟨_, _, _, _, _, h, k, hk⟩

theorem same_sync {x x' : Fin (1 + 3) → ℝ} : SameUpToTurns 2 x x' ↔ (x' 0 = x 0 ∧ x' 1 = x 1 ∧ x' 2 = x 2) ∧ ∃ k : ℤ, x' 3 = x 3 + 2 * Real.pi * k := by
  refine and_congr ⟨fun h => ⟨h 0 (by decide), h 1 (by decide), h 2 (by decide)⟩, fun ⟨h0, h1, h2⟩ i hi => ?_⟩ Iff.rfl
  fin_cases i
  · exact h0
  · exact h1
  · exact h2
  · exact (hi rfl).elim

theorem sync_decides {A : Type} {torque : (Fin 3 → ℝ) → ℝ} {ode : (Fin 3 → ℝ) → (Fin 2 → ℝ) → ℝ → Fin 3 → ℝ} {f : Frame ℝ SyncY (Fin 2 → ℝ) A}
    (hf : LikeSync (syncTq torque) f) {limits : List ℝ} {v : ℝ} {load : AnyLoad} {asked legal : A → Prop}
    (hl : NonzeroLimits syncStates limits ["omega", "i_sd", "i_sq", "epsilon"])
    (ht : ∀ z z' : Fin 3 → ℝ, (∀ i, i ≠ 2 → z' i = z i) → torque z' = torque z)
    (ho : ∀ (z z' : Fin 3 → ℝ) u w, (∀ i, i ≠ 2 → z' i = z i) → ode z' u w = ode z u w)
    (ha : ∀ (x : Fin (1 + 3) → ℝ) (k : ℤ) a, f.action ⟨[x 0], ![x 1, x 2], x 3 + 2 * Real.pi * k⟩ a = f.action (syncY x) a)
    (hok : ∀ x a, asked a → legal (f.action (syncY x) a)) :
    Decides 3 f (syncReset (syncTq torque)) limits syncY v torque ode load asked legal (SameUpToTurns 2) := by
  have key : ∀ x x' : Fin (1 + 3) → ℝ, SameUpToTurns 2 x x' → ∃ k : ℤ, syncY x' = ⟨[x 0], ![x 1, x 2], x 3 + 2 * Real.pi * k⟩ := by
    intro x x' h
    obtain ⟨⟨h0, h1, h2⟩, k, hk⟩ := same_sync.1 h
    exact ⟨k, by rw [syncY, h0, h1, h2, hk]⟩
  refine ⟨fun x => ⟨fun _ _ => rfl, 0, by simp⟩, fun x x' a h => ?_, hok, fun x x' h => ?_, fun x x' w h => ?_, fun u s x x' h => ?_, fun x x' z z' w h h' => ?_,
    fun o z z' h h' => ?_⟩
  · obtain ⟨k, e⟩ := key x x' h
    rw [e, ha]
  · obtain ⟨k, e⟩ := key x x' h
    refine ⟨dqToAbc ![x 1, x 2] (x 3), ?_, ?_⟩
    · rw [hf.iIn]
      exact l3_ofFn _
    · rw [hf.iIn, e]
      simp only [syncFrame, dqToAbc_turns]
      exact l3_ofFn _
  · obtain ⟨k, e⟩ := key x x' h
    refine ⟨abcToDq w (x 3), ?_, ?_⟩
    · rw [hf.lastU]
      simp only [syncFrame, three_ofFn]
      rfl
    · rw [hf.lastU, e]
      simp only [syncFrame, three_ofFn, Except.map, abcToDq_fullTurns]
  · exact turns_flow ht ho u s x x' h
  · obtain ⟨k, e⟩ := key x x' h
    obtain ⟨l, e'⟩ := key z z' h'
    have et : syncTq torque ⟨[z 0], ![z 1, z 2], z 3 + 2 * Real.pi * l⟩ = syncTq torque (syncY z) := ht _ _ fun i hi => by
      fin_cases i
      · rfl
      · rfl
      · exact (hi rfl).elim
    rw [hf.report, e, e']
    simp only [syncFrame, three_ofFn, Except.map, dqToAbc_turns, abcToDq_fullTurns, wrap_periodic, et]
    rfl
  · obtain ⟨T, i, w, udq, e, h, k, hk⟩ := shown_sync hf h
    obtain ⟨T', i', w', udq', e', h', k', hk'⟩ := shown_sync hf h'
    have r : ∀ n ∈ ["omega", "i_sd", "i_sq", "epsilon"], readState syncStates ([z' 0] ++ [T'] ++ l3 i' ++ l2 ![z' 1, z' 2] ++ l3 w' ++ l2 udq' ++ [e'] ++ [v]) n =
        readState syncStates ([z 0] ++ [T] ++ l3 i ++ l2 ![z 1, z 2] ++ l3 w ++ l2 udq ++ [e] ++ [v]) n := fun n hn => by
      rw [← unscale_eq h (hl n hn), ← unscale_eq h' (hl n hn)]
    have r0 := r "omega" (by simp)
    have r1 := r "i_sd" (by simp)
    have r2 := r "i_sq" (by simp)
    have r3 := r "epsilon" (by simp)
    simp [syncStates_eq, readState, l3, l2] at r0 r1 r2 r3
    refine same_sync.2 ⟨⟨r0, r1, r2⟩, k - k', ?_⟩
    push_cast
    linarith

/-- C139 for PMSM and SynRM with switches, duty cycles of the phases or actions in dq coordinates; the angle is known up to full turns only. -/
theorem c139_sync (mp : SyncParams ℝ) {P : Type} (src : Source P) (load : AnyLoad) (limits : List ℝ) (v : ℝ) (hs : load.Static) (hv : FixedVoltage src v)
    (hl : NonzeroLimits syncStates limits ["omega", "i_sd", "i_sq", "epsilon"])
    (torque : (Fin 3 → ℝ) → ℝ) (ode : (Fin 3 → ℝ) → (Fin 2 → ℝ) → ℝ → Fin 3 → ℝ)
    (hm : torque = pmsmTorque mp ∧ ode = syncOde (pmsmConstants mp) ∨ torque = synrmTorque mp ∧ ode = syncOde (synrmConstants mp)) :
    (∀ {A C : Type} (pw : Power A C) (c₀ : C) (legal : A → Prop) (out : A → (Fin 3 → ℝ) → Fin 3 → ℝ) (w0 : Fin 3 → ℝ) (f : Frame ℝ SyncY (Fin 2 → ℝ) A),
      Memoryless pw c₀ legal out w0 → LikeSync (syncTq torque) f → (∀ y a, f.action y a = a) →
      ObservationDecides pw c₀ legal src load torque ode syncY ofSyncY f (syncReset (syncTq torque)) limits) ∧
    ∀ {C : Type} (pw : Power (List ℝ) C) (c₀ : C) (out : List ℝ → (Fin 3 → ℝ) → Fin 3 → ℝ) (w0 : Fin 3 → ℝ), Memoryless pw c₀ (·.length = 3) out w0 →
      ObservationDecides pw c₀ (·.length = 2) src load torque ode syncY ofSyncY (syncFrame (syncTq torque) true) (syncReset (syncTq torque)) limits := by
  have ht : ∀ z z' : Fin 3 → ℝ, (∀ i, i ≠ 2 → z' i = z i) → torque z' = torque z := by
    intro z z' h
    rcases hm with ⟨rfl, -⟩ | ⟨rfl, -⟩
    · simp only [pmsmTorque, h 0 (by decide), h 1 (by decide)]
    · simp only [synrmTorque, h 0 (by decide), h 1 (by decide)]
  have ho : ∀ (z z' : Fin 3 → ℝ) u w, (∀ i, i ≠ 2 → z' i = z i) → ode z' u w = ode z u w := by
    intro z z' u w h
    rcases hm with ⟨-, rfl⟩ | ⟨-, rfl⟩
    · rw [pmsm_ode, pmsm_ode, h 0 (by decide), h 1 (by decide)]
    · rw [synrm_ode, synrm_ode, h 0 (by decide), h 1 (by decide)]
  refine ⟨fun pw c₀ legal out w0 f h hf ha => ?_, fun pw c₀ out w0 h => ?_⟩
  · exact observation_decides (sync_decides hf hl ht ho (fun x k a => by rw [ha, ha]) (fun x a h => by rw [ha]; exact h)) hs hv syncY_back h
  · refine observation_decides (sync_decides (f := syncFrame (syncTq torque) true) (by exact ⟨rfl, rfl, rfl, rfl⟩) hl ht ho (fun x k a => ?_) (fun x a h => ?_)) hs hv syncY_back h
    · match a with
      | [d, q] => simp only [syncFrame, if_true, dqToAbc_turns]; rfl
      | [] => rfl
      | [_] => rfl
      | _ :: _ :: _ :: _ => rfl
    · obtain ⟨d, q, rfl⟩ := List.length_eq_two.1 h
      simp [syncFrame, l3]

/-- limits and a converter for a PMSM with dq actions -/
example (mp : SyncParams ℝ) (d il : ℝ) :
    ObservationDecides contPower (.b6 (CB6.new d il)) (·.length = 2) (idealSource 60) .const (pmsmTorque mp) (syncOde (pmsmConstants mp)) syncY ofSyncY
      (syncFrame (syncTq (pmsmTorque mp)) true) (syncReset (syncTq (pmsmTorque mp))) [4, 4, 4, 4, 4, 4, 4, 4, 4, 4, 4, 4, 4, 4] :=
  (c139_sync mp (idealSource 60) .const [4, 4, 4, 4, 4, 4, 4, 4, 4, 4, 4, 4, 4, 4] 60 trivial ⟨fun _ _ _ => rfl, fun _ => rfl⟩
    (fun n hn => by fin_cases hn <;> simp [syncStates_eq, readState]) _ _ (.inl ⟨rfl, rfl⟩)).2 _ _ _ _ (c139_converters d il).2.2.2.2.2.2.2.1

/-! ## Externally excited synchronous motors -/

theorem shown_eesm {A : Type} {tq : EesmY → ℝ} {f : Frame ℝ EesmY (List ℝ) A} (hf : LikeEesm tq f) {limits o : List ℝ} {v : ℝ} {z : Fin (1 + 4) → ℝ}
    (h : Shown (3 + 1) f (eesmReset tq) limits eesmY v o z) :
    ∃ T ia ib ic ua ub uc a b c e, divLimits [z 0, T, ia, ib, ic, z 1, z 2, z 3, ua, ub, uc, a, b, c, e, v] limits = .ok o ∧
      ∃ k : ℤ, e = z 4 + 2 * Real.pi * k := by
  rcases h with ⟨x, w, h⟩ | ⟨w, h⟩
  · rw [hf.report] at h
    simp only [eesmFrame, four_parts w, parts_take, parts_drop, three_ofFn, Except.map, Except.bind] at h
    obtain ⟨k, hk⟩ := wrap_turns (z 4)
    rw [← l3_ofFn] at h
    exact ⟨_, _, _, _, _, _, _, _, _, _, _, h, k, hk⟩
  · simp only [eesmReset, four_parts w, parts_take, three_ofFn, Except.map, Except.bind] at h
    obtain ⟨k, hk⟩ := wrapReset_turns (z 4)
    rw [← l3_ofFn] at h
    exact ⟨_, _, _, _, _, _, _, _, _, _, _, h, k, hk⟩

theorem same_eesm {x x' : Fin (1 + 4) → ℝ} :
    SameUpToTurns 3 x x' ↔ (x' 0 = x 0 ∧ x' 1 = x 1 ∧ x' 2 = x 2 ∧ x' 3 = x 3) ∧ ∃ k : ℤ, x' 4 = x 4 + 2 * Real.pi * k := by
  refine and_congr ⟨fun h => ⟨h 0 (by decide), h 1 (by decide), h 2 (by decide), h 3 (by decide)⟩, fun ⟨h0, h1, h2, h3⟩ i hi => ?_⟩ Iff.rfl
  fin_cases i
  · exact h0
  · exact h1
  · exact h2
  · exact h3
  · exact (hi rfl).elim

/-- C139 for the externally excited synchronous motor. -/
theorem c139_eesm (ee : EesmParams ℝ) {A C P : Type} (pw : Power A C) (c₀ : C) (legal : A → Prop) (src : Source P) (load : AnyLoad) (limits : List ℝ) (v : ℝ)
    (hs : load.Static) (hv : FixedVoltage src v) (hl : NonzeroLimits eesmStates limits ["omega", "i_sd", "i_sq", "i_e", "epsilon"])
    (out : A → (Fin (3 + 1) → ℝ) → Fin (3 + 1) → ℝ) (w0 : Fin (3 + 1) → ℝ) (hm : Memoryless pw c₀ legal out w0) (f : Frame ℝ EesmY (List ℝ) A)
    (hf : LikeEesm (eesmTq ee) f) :
    ObservationDecides pw c₀ legal src load (eesmTorque ee) (fun x (u : List ℝ) w => eesmOde ee x (fun i => u.getD i 0) w) eesmY ofEesmY f
      (eesmReset (eesmTq ee)) limits := by
  have key : ∀ x x' : Fin (1 + 4) → ℝ, SameUpToTurns 3 x x' → ∃ k : ℤ, eesmY x' = ⟨[x 0], ![x 1, x 2], x 3, x 4 + 2 * Real.pi * k⟩ := by
    intro x x' h
    obtain ⟨⟨h0, h1, h2, h3⟩, k, hk⟩ := same_eesm.1 h
    exact ⟨k, by rw [eesmY, h0, h1, h2, h3, hk]⟩
  have ht : ∀ z z' : Fin 4 → ℝ, (∀ i, i ≠ 3 → z' i = z i) → eesmTorque ee z' = eesmTorque ee z := fun z z' h => by
    simp only [eesmTorque, h 0 (by decide), h 1 (by decide), h 2 (by decide)]
  have ho : ∀ (z z' : Fin 4 → ℝ) (u : List ℝ) w, (∀ i, i ≠ 3 → z' i = z i) →
      eesmOde ee z' (fun i => u.getD i 0) w = eesmOde ee z (fun i => u.getD i 0) w := fun z z' u w h => by
    simp only [eesmOde, h 0 (by decide), h 1 (by decide), h 2 (by decide)]
  refine observation_decides (R := SameUpToTurns 3) (legal := legal) (n := 3 + 1) ⟨fun x => ⟨fun _ _ => rfl, 0, by simp⟩, fun x x' a h => by rw [hf.action, hf.action],
    fun x a h => by rw [hf.action]; exact h, fun x x' h => ?_, fun x x' w h => ?_,
    fun u s x x' h => turns_flow ht (fun z z' u w h => ho z z' u w h) u s x x' h, fun x x' z z' w h h' => ?_, fun o z z' h h' => ?_⟩ hs hv ?_ hm
  · obtain ⟨k, e⟩ := key x x' h
    refine ⟨Fin.append (dqToAbc ![x 1, x 2] (x 4)) fun _ => x 3, ?_, ?_⟩
    · rw [hf.iIn, List.ofFn_fin_append, ← l3_ofFn]
      rfl
    · rw [hf.iIn, List.ofFn_fin_append, ← l3_ofFn, e]
      simp only [eesmFrame, dqToAbc_turns]
      rfl
  · obtain ⟨k, e⟩ := key x x' h
    refine ⟨l2 (abcToDq (fun k => w (Fin.castAdd 1 k)) (x 4)) ++ [w 3], ?_, ?_⟩
    · rw [hf.lastU]
      simp only [eesmFrame, four_parts w, parts_take, parts_drop, three_ofFn]
      rfl
    · rw [hf.lastU, e]
      simp only [eesmFrame, four_parts w, parts_take, parts_drop, three_ofFn, Except.map, abcToDq_fullTurns]
  · obtain ⟨k, e⟩ := key x x' h
    obtain ⟨l, e'⟩ := key z z' h'
    have et : eesmTq ee ⟨[z 0], ![z 1, z 2], z 3, z 4 + 2 * Real.pi * l⟩ = eesmTq ee (eesmY z) := ht _ _ fun i hi => by
      fin_cases i
      · rfl
      · rfl
      · rfl
      · exact (hi rfl).elim
    rw [hf.report, e, e']
    simp only [eesmFrame, four_parts w, parts_take, parts_drop, three_ofFn, Except.map, dqToAbc_turns, abcToDq_fullTurns, wrap_periodic, et]
    rfl
  · obtain ⟨T, ia, ib, ic, ua, ub, uc, a, b, c, e, h, k, hk⟩ := shown_eesm hf h
    obtain ⟨T', ia', ib', ic', ua', ub', uc', a', b', c', e', h', k', hk'⟩ := shown_eesm hf h'
    have r : ∀ n ∈ ["omega", "i_sd", "i_sq", "i_e", "epsilon"],
        readState eesmStates [z' 0, T', ia', ib', ic', z' 1, z' 2, z' 3, ua', ub', uc', a', b', c', e', v] n =
        readState eesmStates [z 0, T, ia, ib, ic, z 1, z 2, z 3, ua, ub, uc, a, b, c, e, v] n := fun n hn => by
      rw [← unscale_eq h (hl n hn), ← unscale_eq h' (hl n hn)]
    have r0 := r "omega" (by simp)
    have r1 := r "i_sd" (by simp)
    have r2 := r "i_sq" (by simp)
    have r3 := r "i_e" (by simp)
    have r4 := r "epsilon" (by simp)
    simp [eesmStates_eq, readState] at r0 r1 r2 r3 r4
    refine same_eesm.2 ⟨⟨r0, r1, r2, r3⟩, k - k', ?_⟩
    push_cast
    linarith
  · intro x
    funext i
    fin_cases i <;> rfl

/-! ## Hidden states -/

theorem im_flow (mp : ImParams ℝ) (u : Fin 2 → ℝ) (h : ℝ) (x : Fin (1 + 5) → ℝ) :
    euStep (core (imTorque mp) (scimOde mp) .const u) h x 1 = x 1 + h * scimOde mp (fun i => x (Fin.natAdd 1 i)) u (x 0) 0 := rfl

/-- The flux of a squirrel cage motor is not observed: after resets with different fluxes the observations are the same, but the same voltages lead to
different currents. -/
theorem c139_scim_violated (mp : ImParams ℝ) (tau il v d : ℝ) (hd : d ≠ 0) (hc : mp.lm * mp.rr / (mp.sigma * mp.ls * mp.lr ^ 2) ≠ 0)
    (limits : List ℝ) (hl : limits.length = 14) (hl0 : readState scimStates limits "i_sa" ≠ 0) :
    ¬ ObservationDecides contPower (.b6 (CB6.new tau il)) (·.length = 3) (idealSource v) .const (imTorque mp) (scimOde mp) imY ofImY
      (scimFrame (imTq mp) false) (scimReset (imTq mp)) limits := by
  intro H
  obtain ⟨f, hf⟩ : ∃ f, f = scimFrame (imTq mp) false := ⟨_, rfl⟩
  obtain ⟨p, hp⟩ : ∃ p, p = eulerParts contPower (idealSource v) .const (imTorque mp) (scimOde mp) none imY ofImY := ⟨_, rfl⟩
  obtain ⟨s, hs⟩ : ∃ s : St ℝ (Euler ℝ (Fin (1 + 5) → ℝ)) (CConv ℝ) Unit, s = ⟨0, 0, ⟨0, 0, 1⟩, .b6 (CB6.new tau il), ()⟩ := ⟨_, rfl⟩
  obtain ⟨x, hx⟩ : ∃ x : ℝ → Fin (1 + 5) → ℝ, x = fun r => ![0, 0, 0, r, 0, 0] := ⟨_, rfl⟩
  have arg : ∀ r, 0 < r → (imY (x r)).field = 0 := by
    intro r hr
    subst hx
    exact (Complex.arg_ofReal_of_nonneg hr.le)
  -- the observations
  have see : ∀ r, 0 < r → ∃ o', o' = (reset p (scimReset (imTq mp)) limits s (imY (x r))).2 ∧ o' =
      divLimits ([0] ++ [0] ++ l3 (dqToAbc (qInv 0 0) 0) ++ l2 (qInv 0 0) ++ List.ofFn (fun _ : Fin 3 => -1 / 2 * v) ++
        l2 (abcToDq (fun _ => -1 / 2 * v) 0) ++ [wrapReset 0] ++ [v]) limits := by
    intro r hr
    refine ⟨_, rfl, ?_⟩
    have e1 : (reset p (scimReset (imTq mp)) limits s (imY (x r))).2 =
        (scimReset (imTq mp) (imY (x r)) (List.ofFn fun _ : Fin 3 => -1 / 2 * v) [v]).bind fun s => divLimits s limits := by
      have : (contPower.reset s.conv).2 = List.ofFn (fun _ : Fin 3 => (-1 / 2 : ℝ)) := by
        rw [hs]
        simp [contPower, CConv.reset]
        norm_num
      rw [hp]
      simp only [reset, eulerParts, this, idealSource, products_ofFn]
    have e2 : imTq mp (imY (x r)) = 0 := by
      subst hx
      simp [imTq, imTorque, imY]
    have e3 : (imY (x r)).i = 0 := by
      subst hx
      funext k
      fin_cases k <;> rfl
    have e4 : (imY (x r)).mech = [0] := by
      subst hx
      rfl
    have e5 : (imY (x r)).eps = 0 := by
      subst hx
      rfl
    rw [e1]
    simp only [scimReset, three_ofFn, Except.map, Except.bind, arg r hr, e2, e3, e4, e5]
  obtain ⟨o1, a1, a2⟩ := see 1 one_pos
  obtain ⟨o2, b1, b2⟩ := see 2 two_pos
  have hok : ∃ o, o1 = .ok o := by
    rw [a2, divLimits, if_pos (by simp [l3, l2, hl])]
    exact ⟨_, rfl⟩
  obtain ⟨o, ho⟩ := hok
  have h := H d none none s s (x 1) (x 2) [] [] [.inr [0, 0, 0]] o (by rw [hs]) (by rw [hs]) (by rw [hs]; exact one_ne_zero) rfl
    (by simp)
  simp only [← hp, ← hf, answers, stateAfter, List.getLast?_singleton, ← a1, ← b1] at h
  specialize h (by rw [ho]) (by rw [b2, ← a2, ho])
  -- the step
  have step : ∀ r, 0 < r → ∃ o, (simulate p f d limits (reset p (scimReset (imTq mp)) limits s (imY (x r))).1 [0, 0, 0]).2 = .ok o ∧
      readState scimStates o "i_sa" = d * (mp.lm * mp.rr / (mp.sigma * mp.ls * mp.lr ^ 2) * r) / readState scimStates limits "i_sa" := by
    intro r hr
    obtain ⟨z, hz⟩ : ∃ z, z = (reset p (scimReset (imTq mp)) limits s (imY (x r))).1 := ⟨_, rfl⟩
    have y0 : z.solver = ⟨0, x r, 1⟩ := by
      rw [hz, hp, hs, hx]
      simp only [reset, eulerParts, Euler.setInitialValue]
      congr 1
    have t0 : z.t = 0 := by rw [hz]; rfl
    have c0 : IsCB6 tau il z.conv := by rw [hz, hp, hs]; exact ⟨_, rfl, ⟨rfl, rfl⟩, ⟨rfl, rfl⟩, rfl, rfl⟩
    have i0 : t32 ![x r 1, x r 2] = 0 := by
      subst hx
      funext k
      fin_cases k <;> simp [t32, Matrix.mulVec, dotProduct, Fin.sum_univ_succ]
    obtain ⟨c', p', e1, e2⟩ := simulate_once (torque := imTorque mp) (ode := scimOde mp) (load := .const) (scratch := none)
      (toY := imY) (ofY := ofImY) (f := f) (limits := limits) (d := d) (v := v) (src := idealSource v) (a := [0, 0, 0]) (b := [0, 0, 0]) (st := z)
      (w := 0) (i := 0) (δ := ()) (u := 0) (cB6_realises tau il) trivial ⟨fun _ _ _ => rfl, fun _ => rfl⟩ c0 (by rw [hf]; rfl) rfl ⟨tau, rfl⟩
      (by
        funext k
        have h0 : ([0, 0, 0] : List ℝ).getD k 0 = 0 := by fin_cases k <;> rfl
        simp only [smooth, cB6Out, h0, dead, Pi.zero_apply]
        simp [clip]
        norm_num)
      (by rw [hf, y0]; simp only [scimFrame]; rw [show (imY (x r)).i = ![x r 1, x r 2] from rfl, i0]; exact l3_ofFn _)
      (by
        rw [hf]
        simp only [scimFrame, three_ofFn, Except.map]
        congr 1
        funext k
        fin_cases k <;> simp [t23, Matrix.mulVec, dotProduct])
      (by rw [y0]; exact one_ne_zero) (by rw [y0, t0])
    rw [← hp] at e2
    rw [← hz, e2, hf]
    simp only [scimFrame, three_ofFn, Except.map, Except.bind, divLimits, phases_free]
    rw [if_pos (by simp [hl, imY, l3, l2])]
    refine ⟨_, rfl, ?_⟩
    rw [read_div]
    congr 1
    rw [y0]
    simp only [Function.iterate_one, Nat.cast_one, div_one]
    have g1 := im_flow mp 0 d (x r)
    have g2 : scimOde mp (fun i => x r (Fin.natAdd 1 i)) 0 (x r 0) 0 = mp.lm * mp.rr / (mp.sigma * mp.ls * mp.lr ^ 2) * r := by
      subst hx
      simp [scimOde, imOde, imConstants, Matrix.mulVec, dotProduct, Fin.sum_univ_succ]
    rw [g2, show x r 1 = 0 by rw [hx]; rfl, zero_add] at g1
    rw [← g1]
    simp [scimStates_eq, readState, imY, l3, l2, t32, Matrix.mulVec, dotProduct, Fin.sum_univ_succ]
  obtain ⟨q1, h1, r1⟩ := step 1 one_pos
  obtain ⟨q2, h2, r2⟩ := step 2 two_pos
  rw [h1, h2] at h
  have hq : q1 = q2 := by simpa using h
  rw [← hq, r1, div_left_inj' hl0] at r2
  have := mul_left_cancel₀ hd r2
  have := mul_left_cancel₀ hc this
  norm_num at this

/-- a motor with these properties -/
example : (⟨2, 1, 1, 1, 1, 1⟩ : ImParams ℝ).lm * (⟨2, 1, 1, 1, 1, 1⟩ : ImParams ℝ).rr /
    ((⟨2, 1, 1, 1, 1, 1⟩ : ImParams ℝ).sigma * (⟨2, 1, 1, 1, 1, 1⟩ : ImParams ℝ).ls * (⟨2, 1, 1, 1, 1, 1⟩ : ImParams ℝ).lr ^ 2) ≠ 0 := by
  norm_num [ImParams.sigma, ImParams.ls, ImParams.lr]

section twice

variable {m n : ℕ} {Y U A C P D : Type} {pw : Power A C} {src : Source P} {torque : (Fin m → ℝ) → ℝ}
  {ode : (Fin m → ℝ) → U → ℝ → Fin m → ℝ} {load : AnyLoad} {scratch : Option (Fin (1 + m) → ℝ)} {toY : (Fin (1 + m) → ℝ) → Y}
  {ofY : Y → Fin (1 + m) → ℝ} {f : Frame ℝ Y U A} {limits : List ℝ} {v : ℝ} {M : Machine D A n} {all : A → Prop} {holds : C → D → Prop}

/-- A step with one inner switching time and one interval between the switching times. -/
theorem simulate_twice (hR : Realises pw M all holds) (hs : load.Static) (hv : FixedVoltage src v)
    {st : St ℝ (Euler ℝ (Fin (1 + m) → ℝ)) C P} {a : A} {δ : D} {d s τ : ℝ} {w i w' i' : Fin n → ℝ} {u u' : U} (hc : holds st.conv δ)
    (hb : f.action (toY st.solver.y) a = a) (ha : all a) (ht : M.times δ a = [s, τ]) (ho : M.out δ a 0 i = w) (ho' : M.out δ a s i' = w')
    (hi : f.iIn (toY st.solver.y) = List.ofFn i) (hu : f.loopU (toY st.solver.y) (List.ofFn fun k => w k * v) = .ok u)
    (hi' : f.iIn (toY (euStep (core torque ode load u) s st.solver.y)) = List.ofFn i')
    (hu' : f.lastU (toY (euStep (core torque ode load u) s st.solver.y)) (List.ofFn fun k => w' k * v) = .ok u')
    (hn : st.solver.nsteps = 1) (hsync : st.solver.t = st.t) :
    ∃ x, (simulate (eulerParts pw src load torque ode scratch toY ofY) f d limits st a).2 =
      ((f.report x (toY (euStep (core torque ode load u') (d - s) (euStep (core torque ode load u) s st.solver.y)))
        (List.ofFn fun k => w' k * v) [v]).bind fun s => divLimits s limits) := by
  obtain ⟨t, k, ⟨t', y, n'⟩, c, p⟩ := st
  simp only at hc hb hi hu hn hsync hi' hu'
  subst hn hsync
  obtain ⟨⟨during, h1, h2⟩, -⟩ := hR
  obtain ⟨c1, e1, e2, e3⟩ := h1 c δ a t' hc ha
  obtain ⟨-, h3⟩ := h2 c1 δ a t' ha e3 i
  obtain ⟨c2, e4, e5, -⟩ := h3 0
  rw [add_zero, ho] at e4
  obtain ⟨⟨is, h4⟩, h5⟩ := h2 c2 δ a t' ha e5 i'
  obtain ⟨c3, e6, -, -⟩ := h5 s
  rw [ho'] at e6
  have k1 := integrate_iterate (core torque ode load u) ⟨t', y, 1⟩ (t' + s) one_ne_zero
  have k2 := integrate_iterate (core torque ode load u') ⟨t' + s, euStep (core torque ode load u) s y, 1⟩ (t' + d) one_ne_zero
  simp only [add_sub_cancel_left, Nat.cast_one, div_one, Function.iterate_one, add_sub_add_left_eq_sub] at k1 k2
  unfold simulate
  simp only [eulerParts, hb, e1, ht, List.map_cons, List.map_nil, List.dropLast_cons_cons, List.dropLast_singleton, pieces, Call.bind, piece, hi, e2 i, e4, hv.1,
    products_ofFn, hu, drive_static torque ode hs, k1, hi', h4, e6, hu', k2]
  exact ⟨_, rfl⟩

end twice

/-- Half bridges that wait with open switches between closed ones have a hidden state as well: with a negative current, the high switch closed and both
switches open give the same voltage, but only the former has to wait until the low switch closes. -/
theorem c139_interlock_violated (limits : List ℝ) (hl : limits.length = 5) (hl0 : readState dcOneStates limits "i" ≠ 0) :
    ¬ ObservationDecides finitePower (.two (TwoQC.new (1 / 2) (1 / 4))) (· < 3) (idealSource 1) .const (permExTorque ⟨1, 1, 1⟩)
      (fun x (u : List ℝ) w => permExOde ⟨1, 1, 1⟩ x (fun i => u.getD i 0) w) dcY ofDcY (dcFrame id (dcTq (permExTorque ⟨1, 1, 1⟩)) [0] 1 1)
      (dcResetReport (dcTq (permExTorque ⟨1, 1, 1⟩)) [0]) limits := by
  intro H
  obtain ⟨ode, hode⟩ : ∃ ode, ode = (fun x (u : List ℝ) w => permExOde (⟨1, 1, 1⟩ : PermExParams ℝ) x (fun i => u.getD i 0) w) := ⟨_, rfl⟩
  obtain ⟨rep, hrep⟩ : ∃ r, r = (dcResetReport (dcTq (permExTorque (⟨1, 1, 1⟩ : PermExParams ℝ))) [0]) := ⟨_, rfl⟩
  obtain ⟨f, hf⟩ : ∃ f : Frame ℝ (DcY ℝ) (List ℝ) ℕ, f = dcFrame id (dcTq (permExTorque ⟨1, 1, 1⟩)) [0] 1 1 := ⟨_, rfl⟩
  rw [← hode, ← hrep, ← hf] at H
  obtain ⟨p, hp⟩ : ∃ p, p = eulerParts finitePower (idealSource 1) .const (permExTorque ⟨1, 1, 1⟩) ode none dcY ofDcY := ⟨_, rfl⟩
  obtain ⟨s, hs⟩ : ∃ s : St ℝ (Euler ℝ (Fin (1 + 1) → ℝ)) (FConv ℝ) Unit, s = ⟨0, 0, ⟨0, 0, 1⟩, .two (TwoQC.new (1 / 2) (1 / 4)), ()⟩ := ⟨_, rfl⟩
  obtain ⟨z, hz⟩ : ∃ z, z = (reset p rep limits s (dcY (m := 1) ![0, -8])).1 := ⟨_, rfl⟩
  have y0 : z.solver = ⟨0, ![0, -8], 1⟩ := by
    rw [hz, hp, hs]
    simp only [reset, eulerParts, Euler.setInitialValue, back_dc]
  have t0 : z.t = 0 := by rw [hz]; rfl
  have c0 : IsFTwo (1 / 2) (1 / 4) z.conv 0 := by
    rw [hz, hp, hs]
    exact ⟨_, rfl, rfl, rfl, rfl, by norm_num⟩
  have flow : ∀ (u h i : ℝ), euStep (core (permExTorque (⟨1, 1, 1⟩ : PermExParams ℝ)) ode .const [u]) h ![0, i] = ![0, i + h * (u - i)] := by
    intro u h i
    have : core (permExTorque (⟨1, 1, 1⟩ : PermExParams ℝ)) ode .const [u] ![0, i] = ![0, u - i] := by
      unfold core
      rw [hode]
      simp only [permExOde_eq]
      funext k
      fin_cases k
      · rfl
      · change (-1 * 0 - 1 * i + u) / 1 = u - i
        ring
    rw [euStep, this]
    funext k
    fin_cases k
    · change 0 + h * 0 = (0 : ℝ)
      ring
    · rfl
  have rep1 : ∀ (x y : DcY ℝ) (j u : ℝ), y = dcY (m := 1) ![0, j] → ∃ o, ((f.report x y [u] [1]).bind fun s => divLimits s limits) = .ok o ∧
      o = List.zipWith (· / ·) [0, j, j, u, 1] limits := by
    rintro x y j u rfl
    rw [hf]
    refine ⟨_, ?_, rfl⟩
    have : (dcFrame (A := ℕ) id (dcTq (permExTorque (⟨1, 1, 1⟩ : PermExParams ℝ))) [0] 1 1).report x (dcY (m := 1) ![0, j]) [u] [1] = .ok [0, 1 * j, j, u, 1] := rfl
    rw [this]
    simp only [Except.bind, divLimits, one_mul]
    rw [if_pos (by simp [hl])]
  -- the first steps
  have first : ∀ a : ℕ, a < 2 → ∃ c' p', IsFTwo (1 / 2) (1 / 4) c' a ∧ simulate p f (1 / 2) limits z a =
      (⟨1 / 2, z.k + 1, ⟨1 / 2, ![0, -7 / 2], 1⟩, c', p'⟩, .ok (List.zipWith (· / ·) [0, -7 / 2, -7 / 2, 1, 1] limits)) := by
    intro a ha
    have hw : ¬ Waits (1 / 4) 0 a := fun h => h.2.1 rfl
    have hnx : legNext (1 / 2) (1 / 4) 0 a 0 = a := by
      unfold legNext
      simp only [hw, false_and, if_false]
    obtain ⟨c', p', e1, e2⟩ := simulate_once (torque := permExTorque ⟨1, 1, 1⟩) (ode := ode) (load := .const) (scratch := none) (toY := dcY) (ofY := ofDcY)
      (f := f) (limits := limits) (d := 1 / 2) (v := 1) (src := idealSource 1) (a := a) (b := a) (st := z) (w := fun _ => 1) (i := fun _ => -8) (δ := 0)
      (u := [1]) (fTwo_realises (1 / 2) (1 / 4)) trivial ⟨fun _ _ _ => rfl, fun _ => rfl⟩ c0 (by rw [hf]; rfl) (by omega)
      ⟨1 / 2, by show legTimes _ _ _ _ = _; unfold legTimes; simp only [hw, if_false]⟩
      (by
        funext k
        simp only [fTwo, hnx]
        obtain rfl | rfl : a = 0 ∨ a = 1 := by omega
        all_goals norm_num [legOut])
      (by rw [hf, y0]; rfl) (by rw [hf]; simp [dcFrame]) (by rw [y0]; exact one_ne_zero) (by rw [y0, t0])
    rw [← hp, y0, t0] at e2
    simp only [Nat.cast_one, div_one, Function.iterate_one, flow, zero_add] at e2
    rw [show (-8 : ℝ) + 1 / 2 * (1 - -8) = -7 / 2 by norm_num] at e2
    rw [show (fTwo (1 / 2) (1 / 4)).next 0 a 0 = a from hnx] at e1
    refine ⟨c', p', e1, ?_⟩
    obtain ⟨o, r1, r2⟩ := rep1 (dcY (m := 1) ![0, -8]) _ (-7 / 2) 1 rfl
    rw [e2]
    simp only [List.ofFn_succ, List.ofFn_zero, mul_one]
    rw [r1, r2]
  obtain ⟨ca, pa, a1, a2⟩ := first 0 (by norm_num)
  obtain ⟨cb, pb, b1, b2⟩ := first 1 (by norm_num)
  have h := H (1 / 2) none none s s ![0, -8] ![0, -8] [.inr 0] [.inr 1] [.inr 2]
    (List.zipWith (· / ·) [0, -7 / 2, -7 / 2, 1, 1] limits) (by rw [hs]) (by rw [hs]) (by rw [hs]; exact one_ne_zero) rfl (by simp)
  simp only [← hp, answers, stateAfter, List.getLast?_cons_cons, List.getLast?_singleton, ← hz, a2, b2] at h
  specialize h trivial trivial
  -- open switches
  obtain ⟨c', p', -, e2⟩ := simulate_once (torque := permExTorque ⟨1, 1, 1⟩) (ode := ode) (load := .const) (scratch := none) (toY := dcY) (ofY := ofDcY)
    (f := f) (limits := limits) (d := 1 / 2) (v := 1) (src := idealSource 1) (a := 2) (b := 2)
    (st := ⟨1 / 2, z.k + 1, ⟨1 / 2, ![0, -7 / 2], 1⟩, ca, pa⟩) (w := fun _ => 0) (i := fun _ => -7 / 2) (δ := 0)
    (u := [0]) (fTwo_realises (1 / 2) (1 / 4)) trivial ⟨fun _ _ _ => rfl, fun _ => rfl⟩ a1 (by rw [hf]; rfl) (by norm_num)
    ⟨1 / 2, by show legTimes _ _ _ _ = _; unfold legTimes; simp [Waits]⟩
    (by
      funext k
      simp [fTwo, legNext, Waits, legOut])
    (by rw [hf]; rfl) (by rw [hf]; simp [dcFrame]) one_ne_zero rfl
  -- closed switch
  obtain ⟨x, e3⟩ := simulate_twice (torque := permExTorque ⟨1, 1, 1⟩) (ode := ode) (load := .const) (scratch := none) (toY := dcY) (ofY := ofDcY)
    (f := f) (limits := limits) (d := 1 / 2) (s := 1 / 4) (τ := 1 / 2) (v := 1) (src := idealSource 1) (a := 2)
    (st := ⟨1 / 2, z.k + 1, ⟨1 / 2, ![0, -7 / 2], 1⟩, cb, pb⟩) (w := fun _ => 1) (w' := fun _ => 1) (i := fun _ => -7 / 2) (i' := fun _ => -19 / 8) (δ := 1)
    (u := [1]) (u' := [1]) (fTwo_realises (1 / 2) (1 / 4)) trivial ⟨fun _ _ _ => rfl, fun _ => rfl⟩ b1 (by rw [hf]; rfl) (by norm_num)
    (by show legTimes _ _ _ _ = _; unfold legTimes; simp [Waits])
    (by
      funext k
      norm_num [fTwo, legNext, Waits, legOut])
    (by
      funext k
      norm_num [fTwo, legNext, Waits, legOut])
    (by rw [hf]; rfl) (by rw [hf]; simp [dcFrame]) (by rw [flow, show (-7 / 2 : ℝ) + 1 / 4 * (1 - -7 / 2) = -19 / 8 by norm_num, hf]; rfl)
    (by rw [hf]; simp [dcFrame]) rfl rfl
  rw [← hp] at e2 e3
  rw [e2, e3] at h
  simp only [Nat.cast_one, div_one, Function.iterate_one, flow, List.ofFn_succ, List.ofFn_zero, mul_one] at h
  obtain ⟨o1, g1, g2⟩ := rep1 (dcY (m := 1) ![0, -7 / 2]) (dcY (m := 1) ![0, -7 / 2 + 1 / 2 * (0 - -7 / 2)]) _ 0 rfl
  obtain ⟨o2, g3, g4⟩ := rep1 x (dcY (m := 1) ![0, -7 / 2 + 1 / 4 * (1 - -7 / 2) + (1 / 2 - 1 / 4) * (1 - (-7 / 2 + 1 / 4 * (1 - -7 / 2)))]) _ 1 rfl
  rw [g1, g3] at h
  have ho : o1 = o2 := by simpa using h
  have hr := congrArg (fun o => readState dcOneStates o "i") ho
  have e1 : dcOneStates = ["omega", "torque", "i", "u", "u_sup"] := rfl
  simp only [g2, g4, read_div, div_left_inj' hl0] at hr
  simp [e1, readState] at hr
  norm_num at hr

end

end GEM.Props
