import Verif.Props.Reversal
import Verif.Props.Markov

/-!
# C140: motors that are special cases of others

Two systems of the toolbox that describe the same drive answer alike.
-/

set_option linter.unusedSectionVars false

namespace GEM.Props

noncomputable section

open GEM GEM.Sys GEM.Conv GEM.Motor GEM.Solver GEM.Load

/-! ## Statement -/

/-- Any solver: the time and the state it has reached, the solution of an equation up to a time, the start at a state and a time. -/
structure AnySolver (X S : Type) where
  time : S → ℝ
  state : S → X
  run : (ℝ → X → X) → S → ℝ → S
  start : S → X → ℝ → S

/-- the solver of the toolbox -/
def eulerSolver (m : ℕ) : AnySolver (Fin (1 + m) → ℝ) (Euler ℝ (Fin (1 + m) → ℝ)) :=
  ⟨fun s => s.t, fun s => s.y, fun f s t => (s.integrate f t).1, fun s x t => s.setInitialValue x t⟩

/-- A system with any converter, supply, load and solver. -/
def solverParts {m : ℕ} {Y U A S C P : Type} (pw : Power A C) (src : Source P) (load : AnyLoad) (sv : AnySolver (Fin (1 + m) → ℝ) S)
    (torque : (Fin m → ℝ) → ℝ) (ode : (Fin m → ℝ) → U → ℝ → Fin m → ℝ) (scratch : Option (Fin (1 + m) → ℝ))
    (toY : (Fin (1 + m) → ℝ) → Y) (ofY : Y → Fin (1 + m) → ℝ) : Parts ℝ Y U A S C P where
  solverT := sv.time
  solverY s := toY (sv.state s)
  integrate s u t := sv.run (drive torque ode load scratch u) s t
  setInitial s y t := sv.start s (ofY y) t
  setAction := pw.setAction
  convert := pw.convert
  iSup := pw.iSup
  convReset := pw.reset
  getVoltage := src.getVoltage
  supplyReset := src.reset

/-- The observations agree in these states, which may have different names in the two systems. -/
def Agree (names names' : List String) (told : List (String × String)) (o o' : List ℝ) : Prop :=
  o.length = names.length ∧ o'.length = names'.length ∧ ∀ n ∈ told, readState names o n.1 = readState names' o' n.2

/-- The limits of two systems agree in these states. -/
def AgreeLimits (names names' : List String) (told : List (String × String)) (limits limits' : List ℝ) : Prop :=
  Agree names names' told limits limits'

/-- Calls of both systems: resets to related states, steps with related actions. -/
inductive Alongside {Y Y' A A' : Type} (start : Y → Y' → Prop) (asked : A → A' → Prop) : Y ⊕ A → Y' ⊕ A' → Prop
  | reset {y : Y} {y' : Y'} (h : start y y') : Alongside start asked (.inl y) (.inl y')
  | step {a : A} {a' : A'} (h : asked a a') : Alongside start asked (.inr a) (.inr a')

/-- The voltage of the supply does not depend on the current: ideal and AC supplies. -/
def Stiff {P : Type} (src : Source P) : Prop := ∀ p t i j, src.getVoltage p t i = src.getVoltage p t j

/-! ## Systems that go on together -/

section systems

variable {Y Y' U U' A A' S S' C C' P : Type}

/-- What two systems have to have in common: `sol` relates the solvers, `rest` and `busy` the converters between and within the steps,
`outs` their outputs, `outs0` their outputs after a reset, `start` the states they are reset to, `asked` the actions, `obs` the answers. -/
structure Abreast (p : Parts ℝ Y U A S C P) (f : Frame ℝ Y U A) (rep : Y → List ℝ → List ℝ → Except Err (List ℝ)) (limits : List ℝ)
    (p' : Parts ℝ Y' U' A' S' C' P) (f' : Frame ℝ Y' U' A') (rep' : Y' → List ℝ → List ℝ → Except Err (List ℝ)) (limits' : List ℝ)
    (levels : ℝ → Prop) (sol : S → S' → Prop) (rest busy : C → C' → Prop) (outs outs0 : List ℝ → List ℝ → Prop) (start : Y → Y' → Prop)
    (asked : A → A' → Prop) (obs : List ℝ → List ℝ → Prop) : Prop where
  time : ∀ s s', sol s s' → p'.solverT s' = p.solverT s
  set : ∀ s s' c c' a a' t, sol s s' → rest c c' → asked a a' →
    (∃ ts, (p.setAction c (f.action (p.solverY s) a) t).2 = .ok ts ∧ (p'.setAction c' (f'.action (p'.solverY s') a') t).2 = .ok ts) ∧
      busy (p.setAction c (f.action (p.solverY s) a) t).1 (p'.setAction c' (f'.action (p'.solverY s') a') t).1
  draw : ∀ s s' c c', sol s s' → busy c c' → ∃ w w', p.iSup c (f.iIn (p.solverY s)) = .ok w ∧ p'.iSup c' (f'.iIn (p'.solverY s')) = .ok w' ∧
    ∀ q t, p'.getVoltage q t w' = p.getVoltage q t w
  level : ∀ q t w, ∃ e, levels e ∧ (p.getVoltage q t w).2 = [e]
  conv : ∀ s s' c c', sol s s' → busy c c' → ∃ u u', (p.convert c (f.iIn (p.solverY s)) (p.solverT s)).2 = .ok u ∧
    (p'.convert c' (f'.iIn (p'.solverY s')) (p'.solverT s')).2 = .ok u' ∧ outs u u' ∧
      busy (p.convert c (f.iIn (p.solverY s)) (p.solverT s)).1 (p'.convert c' (f'.iIn (p'.solverY s')) (p'.solverT s')).1 ∧
      rest (p.convert c (f.iIn (p.solverY s)) (p.solverT s)).1 (p'.convert c' (f'.iIn (p'.solverY s')) (p'.solverT s')).1
  loop : ∀ s s' u u' e, sol s s' → outs u u' → levels e → ∃ v v', f.loopU (p.solverY s) (products u [e]) = .ok v ∧
    f'.loopU (p'.solverY s') (products u' [e]) = .ok v' ∧ ∀ t, sol (p.integrate s v t) (p'.integrate s' v' t)
  last : ∀ s s' u u' e, sol s s' → outs u u' → levels e → ∃ v v', f.lastU (p.solverY s) (products u [e]) = .ok v ∧
    f'.lastU (p'.solverY s') (products u' [e]) = .ok v' ∧ ∀ t, sol (p.integrate s v t) (p'.integrate s' v' t)
  report : ∀ s s' z z' u u' e, sol s s' → sol z z' → outs u u' → levels e →
    Echo obs ((f.report (p.solverY s) (p.solverY z) (products u [e]) [e]).bind fun s => divLimits s limits)
      ((f'.report (p'.solverY s') (p'.solverY z') (products u' [e]) [e]).bind fun s => divLimits s limits')
  reset : ∀ c c', rest c c' → rest (p.convReset c).1 (p'.convReset c').1 ∧ outs0 (p.convReset c).2 (p'.convReset c').2
  supply : ∀ q, p'.supplyReset q = p.supplyReset q ∧ ∃ e, (p.supplyReset q).2 = [e]
  initial : ∀ y y' s s', start y y' → sol s s' → sol (p.setInitial s y 0) (p'.setInitial s' y' 0)
  report0 : ∀ y y' u u' e, start y y' → outs0 u u' → Echo obs ((rep y (products u [e]) [e]).bind fun s => divLimits s limits)
    ((rep' y' (products u' [e]) [e]).bind fun s => divLimits s limits')

/-- states of both systems -/
structure StatesAbreast (sol : S → S' → Prop) (conv : C → C' → Prop) (st : St ℝ S C P) (st' : St ℝ S' C' P) : Prop where
  t : st'.t = st.t
  supply : st'.supply = st.supply
  solver : sol st.solver st'.solver
  conv : conv st.conv st'.conv

variable {p : Parts ℝ Y U A S C P} {f : Frame ℝ Y U A} {rep : Y → List ℝ → List ℝ → Except Err (List ℝ)} {limits : List ℝ}
  {p' : Parts ℝ Y' U' A' S' C' P} {f' : Frame ℝ Y' U' A'} {rep' : Y' → List ℝ → List ℝ → Except Err (List ℝ)} {limits' : List ℝ}
  {levels : ℝ → Prop} {sol : S → S' → Prop} {rest busy : C → C' → Prop} {outs outs0 : List ℝ → List ℝ → Prop} {start : Y → Y' → Prop}
  {asked : A → A' → Prop} {obs : List ℝ → List ℝ → Prop}

theorem piece_abreast (h : Abreast p f rep limits p' f' rep' limits' levels sol rest busy outs outs0 start asked obs)
    {toU : Y → List ℝ → Except Err U} {toU' : Y' → List ℝ → Except Err U'}
    (hU : ∀ s s' u u' e, sol s s' → outs u u' → levels e → ∃ v v', toU (p.solverY s) (products u [e]) = .ok v ∧
      toU' (p'.solverY s') (products u' [e]) = .ok v' ∧ ∀ t, sol (p.integrate s v t) (p'.integrate s' v' t))
    {st : St ℝ S C P} {st' : St ℝ S' C' P} (hst : StatesAbreast sol busy st st') (t : ℝ) :
    ∃ z z' u u' e, piece p f toU st t = (z, .ok (products u [e], [e])) ∧ piece p' f' toU' st' t = (z', .ok (products u' [e], [e])) ∧
      outs u u' ∧ levels e ∧ StatesAbreast sol busy z z' ∧ rest z.conv z'.conv := by
  obtain ⟨t0, k, s, c, q⟩ := st
  obtain ⟨t0', k', s', c', q'⟩ := st'
  obtain ⟨h1, h2, h3, h4⟩ := hst
  simp only at h1 h2 h3 h4
  subst h1 h2
  obtain ⟨w, w', d1, d2, d3⟩ := h.draw s s' c c' h3 h4
  obtain ⟨u, u', c1, c2, c3, c4, c5⟩ := h.conv s s' c c' h3 h4
  obtain ⟨e, he, ev⟩ := h.level q' t0' w
  obtain ⟨v, v', e1, e2, hi⟩ := hU s s' u u' e h3 c3 he
  unfold piece
  simp only [d1, d2, d3, c1, c2, ev, e1, e2]
  exact ⟨_, _, u, u', e, rfl, rfl, c3, he, ⟨rfl, rfl, hi t, c4⟩, c5⟩

theorem pieces_abreast (h : Abreast p f rep limits p' f' rep' limits' levels sol rest busy outs outs0 start asked obs) (ts : List ℝ)
    {st : St ℝ S C P} {st' : St ℝ S' C' P} (hst : StatesAbreast sol busy st st') :
    ∃ z z', pieces p f ts st = (z, .ok ()) ∧ pieces p' f' ts st' = (z', .ok ()) ∧ StatesAbreast sol busy z z' := by
  induction ts generalizing st st' with
  | nil => exact ⟨_, _, rfl, rfl, hst⟩
  | cons t ts ih =>
    obtain ⟨z, z', u, u', e, e1, e2, -, -, h1, -⟩ := piece_abreast h h.loop hst t
    simp only [pieces, Call.bind, e1, e2]
    exact ih h1

theorem simulate_abreast (h : Abreast p f rep limits p' f' rep' limits' levels sol rest busy outs outs0 start asked obs) (tau : ℝ)
    {st : St ℝ S C P} {st' : St ℝ S' C' P} (hst : StatesAbreast sol rest st st') {a : A} {a' : A'} (ha : asked a a') :
    StatesAbreast sol rest (simulate p f tau limits st a).1 (simulate p' f' tau limits' st' a').1 ∧
    Echo obs (simulate p f tau limits st a).2 (simulate p' f' tau limits' st' a').2 := by
  obtain ⟨t0, k, s, c, q⟩ := st
  obtain ⟨t0', k', s', c', q'⟩ := st'
  obtain ⟨h1, h2, h3, h4⟩ := hst
  simp only at h1 h2 h3 h4
  subst h1 h2
  obtain ⟨⟨ts, e1, e2⟩, hb⟩ := h.set s s' c c' a a' t0' h3 h4 ha
  obtain ⟨x, x', k1, k2, k3⟩ := pieces_abreast h ts.dropLast
    (st := ⟨t0', k, s, (p.setAction c (f.action (p.solverY s) a) t0').1, q'⟩)
    (st' := ⟨t0', k', s', (p'.setAction c' (f'.action (p'.solverY s') a') t0').1, q'⟩) ⟨rfl, rfl, h3, hb⟩
  obtain ⟨z, z', u, u', e, g1, g2, g3, g4, g5, g6⟩ := piece_abreast h h.last k3 (x.t + tau)
  unfold simulate
  simp only [e1, e2, Call.bind, k1, k2, k3.t, g1, g2]
  exact ⟨⟨h.time _ _ g5.solver, g5.supply, g5.solver, g6⟩, h.report _ _ _ _ _ _ _ k3.solver g5.solver g3 g4⟩

/-- Histories of both systems: all answers are related. -/
theorem answers_abreast (h : Abreast p f rep limits p' f' rep' limits' levels sol rest busy outs outs0 start asked obs) (tau : ℝ)
    {ops : List (Y ⊕ A)} {ops' : List (Y' ⊕ A')} (ho : List.Forall₂ (Alongside start asked) ops ops')
    {st : St ℝ S C P} {st' : St ℝ S' C' P} (hst : StatesAbreast sol rest st st') :
    List.Forall₂ (Echo obs) (answers p f rep tau limits st ops) (answers p' f' rep' tau limits' st' ops') := by
  induction ho generalizing st st' with
  | nil => exact .nil
  | cons ho _ ih =>
    cases ho with
    | reset hy =>
      obtain ⟨hr, h0⟩ := h.reset _ _ hst.conv
      obtain ⟨hs, e, he⟩ := h.supply st.supply
      refine .cons ?_ (ih ⟨rfl, ?_, h.initial _ _ _ _ hy hst.solver, hr⟩)
      · simp only [reset, hst.supply, hs, he]
        exact h.report0 _ _ _ _ e hy h0
      · simp only [reset, hst.supply, hs]
    | step ha =>
      obtain ⟨h1, h2⟩ := simulate_abreast h tau hst ha
      exact .cons h2 (ih h1)

end systems

/-! ## Converters that do the same -/

section machines

variable {A A' C C' D D' P : Type} {n n' : ℕ}

/-- What the second converter does corresponds to what the first does: `pos` relates the positions of the switches, `cur` the currents,
`outs` the outputs. -/
structure Copies (M : Machine D A n) (M' : Machine D' A' n') (legal : A → Prop) (legal' : A' → Prop) (pos : D → D' → Prop)
    (asked : A → A' → Prop) (cur outs : (Fin n → ℝ) → (Fin n' → ℝ) → Prop) : Prop where
  legal : ∀ a a', asked a a' → legal a ∧ legal' a'
  times : ∀ δ δ' a a', pos δ δ' → asked a a' → M'.times δ' a' = M.times δ a
  out : ∀ δ δ' a a' o i i', pos δ δ' → asked a a' → cur i i' → outs (M.out δ a o i) (M'.out δ' a' o i')
  next : ∀ δ δ' a a' o, pos δ δ' → asked a a' → pos (M.next δ a o) (M'.next δ' a' o)

/-- outputs as lists -/
def OutLists (outs : (Fin n → ℝ) → (Fin n' → ℝ) → Prop) (u u' : List ℝ) : Prop := ∃ w w', u = List.ofFn w ∧ u' = List.ofFn w' ∧ outs w w'

/-- two systems with converters of which one does what the other does, and everything else in common -/
theorem answers_alike {m m' : ℕ} {Y Y' U U' S S' : Type} {pw : Power A C} {pw' : Power A' C'} {src : Source P} {load : AnyLoad}
    {sv : AnySolver (Fin (1 + m) → ℝ) S} {sv' : AnySolver (Fin (1 + m') → ℝ) S'} {torque : (Fin m → ℝ) → ℝ} {torque' : (Fin m' → ℝ) → ℝ}
    {ode : (Fin m → ℝ) → U → ℝ → Fin m → ℝ} {ode' : (Fin m' → ℝ) → U' → ℝ → Fin m' → ℝ} {scratch : Option (Fin (1 + m) → ℝ)}
    {scratch' : Option (Fin (1 + m') → ℝ)} {toY : (Fin (1 + m) → ℝ) → Y} {toY' : (Fin (1 + m') → ℝ) → Y'} {ofY : Y → Fin (1 + m) → ℝ}
    {ofY' : Y' → Fin (1 + m') → ℝ} {f : Frame ℝ Y U A} {f' : Frame ℝ Y' U' A'} {rep : Y → List ℝ → List ℝ → Except Err (List ℝ)}
    {rep' : Y' → List ℝ → List ℝ → Except Err (List ℝ)} {limits limits' : List ℝ} {levels : ℝ → Prop}
    {M : Machine D A n} {M' : Machine D' A' n'} {legal : A → Prop} {legal' : A' → Prop} {holds : C → D → Prop} {holds' : C' → D' → Prop}
    {pos : D → D' → Prop} {asked : A → A' → Prop} {cur outs outs0 : (Fin n → ℝ) → (Fin n' → ℝ) → Prop}
    {state : (Fin (1 + m) → ℝ) → (Fin (1 + m') → ℝ) → Prop} {sol : S → S' → Prop} {obs : List ℝ → List ℝ → Prop}
    (hM : Realises pw M legal holds) (hM' : Realises pw' M' legal' holds') (hC : Copies M M' legal legal' pos asked cur outs)
    (hS : Stiff src) (hL : ∀ q t w, ∃ e, levels e ∧ (src.getVoltage q t w).2 = [e]) (hR : ∀ q, ∃ e, (src.reset q).2 = [e])
    (time : ∀ s s', sol s s' → sv'.time s' = sv.time s) (states : ∀ s s', sol s s' → state (sv.state s) (sv'.state s'))
    (init : ∀ x x' s s', state x x' → sol s s' → sol (sv.start s x 0) (sv'.start s' x' 0))
    (back : ∀ x, ofY (toY x) = x) (back' : ∀ x, ofY' (toY' x) = x)
    (act : ∀ y a, f.action y a = a) (act' : ∀ y a, f'.action y a = a)
    (curr : ∀ x x', state x x' → ∃ i i', f.iIn (toY x) = List.ofFn i ∧ f'.iIn (toY' x') = List.ofFn i' ∧ cur i i')
    (loop : ∀ s s' w w' e, sol s s' → outs w w' → levels e → ∃ v v', f.loopU (toY (sv.state s)) (List.ofFn fun k => w k * e) = .ok v ∧
      f'.loopU (toY' (sv'.state s')) (List.ofFn fun k => w' k * e) = .ok v' ∧ ∀ t,
        sol (sv.run (drive torque ode load none v) s t) (sv'.run (drive torque' ode' load none v') s' t))
    (last : ∀ s s' w w' e, sol s s' → outs w w' → levels e → ∃ v v', f.lastU (toY (sv.state s)) (List.ofFn fun k => w k * e) = .ok v ∧
      f'.lastU (toY' (sv'.state s')) (List.ofFn fun k => w' k * e) = .ok v' ∧ ∀ t,
        sol (sv.run (drive torque ode load none v) s t) (sv'.run (drive torque' ode' load none v') s' t))
    (report : ∀ x x' z z' w w' e, state x x' → state z z' → outs w w' → levels e →
      Echo obs ((f.report (toY x) (toY z) (List.ofFn fun k => w k * e) [e]).bind fun s => divLimits s limits)
        ((f'.report (toY' x') (toY' z') (List.ofFn fun k => w' k * e) [e]).bind fun s => divLimits s limits'))
    (reset : ∀ c c' δ δ', pos δ δ' → holds c δ → holds' c' δ' →
      ∃ w w', (pw.reset c).2 = List.ofFn w ∧ (pw'.reset c').2 = List.ofFn w' ∧ outs0 w w')
    (report0 : ∀ x x' w w' e, state x x' → outs0 w w' → Echo obs ((rep (toY x) (List.ofFn fun k => w k * e) [e]).bind fun s => divLimits s limits)
        ((rep' (toY' x') (List.ofFn fun k => w' k * e) [e]).bind fun s => divLimits s limits'))
    (tau : ℝ) {ops : List (Y ⊕ A)} {ops' : List (Y' ⊕ A')}
    (ho : List.Forall₂ (Alongside (fun y y' => ∃ x x', y = toY x ∧ y' = toY' x' ∧ state x x') asked) ops ops') (t : ℝ) (k k' : ℕ) (s : S) (s' : S')
    (q : P) (c : C) (c' : C') (δ : D) (δ' : D') (hs : sol s s') (hp : pos δ δ') (hc : holds c δ) (hc' : holds' c' δ') :
    List.Forall₂ (Echo obs) (answers (solverParts pw src load sv torque ode scratch toY ofY) f rep tau limits ⟨t, k, s, c, q⟩ ops)
      (answers (solverParts pw' src load sv' torque' ode' scratch' toY' ofY') f' rep' tau limits' ⟨t, k', s', c', q⟩ ops') := by
  have key : ∃ busy, Abreast (solverParts pw src load sv torque ode scratch toY ofY) f rep limits
      (solverParts pw' src load sv' torque' ode' scratch' toY' ofY') f' rep' limits' levels sol
      (fun c c' => ∃ δ δ', pos δ δ' ∧ holds c δ ∧ holds' c' δ') busy (OutLists outs) (OutLists outs0)
      (fun y y' => ∃ x x', y = toY x ∧ y' = toY' x' ∧ state x x') asked obs := by
    obtain ⟨⟨B, a0, b0⟩, r0⟩ := hM
    obtain ⟨⟨B', a1, b1⟩, r1⟩ := hM'
    refine ⟨fun c c' => ∃ δ δ' a a' t, pos δ δ' ∧ asked a a' ∧ B c δ a t ∧ B' c' δ' a' t, time, ?_, ?_, hL, ?_, ?_, ?_, ?_, ?_,
      fun q => ⟨rfl, hR q⟩, ?_, ?_⟩
    · rintro s s' c c' a a' t - ⟨δ, δ', hp, hh, hh'⟩ ha
      obtain ⟨l, l'⟩ := hC.legal _ _ ha
      obtain ⟨d, e1, -, e3⟩ := a0 c δ a t hh l
      obtain ⟨d', e1', -, e3'⟩ := a1 c' δ' a' t hh' l'
      simp only [solverParts, act, act', e1, e1']
      exact ⟨⟨_, rfl, by rw [hC.times _ _ _ _ hp ha]⟩, _, _, _, _, _, hp, ha, e3, e3'⟩
    · rintro s s' c c' hs ⟨δ, δ', a, a', t, hp, ha, hb, hb'⟩
      obtain ⟨l, l'⟩ := hC.legal _ _ ha
      obtain ⟨i, i', hi, hi', -⟩ := curr _ _ (states _ _ hs)
      obtain ⟨⟨w, hw⟩, -⟩ := b0 c δ a t l hb i
      obtain ⟨⟨w', hw'⟩, -⟩ := b1 c' δ' a' t l' hb' i'
      simp only [solverParts, hi, hi']
      exact ⟨w, w', hw, hw', fun q t => hS _ _ _ _⟩
    · rintro s s' c c' hs ⟨δ, δ', a, a', t, hp, ha, hb, hb'⟩
      obtain ⟨l, l'⟩ := hC.legal _ _ ha
      obtain ⟨i, i', hi, hi', hcur⟩ := curr _ _ (states _ _ hs)
      obtain ⟨d, g1, g2, g3⟩ := (b0 c δ a t l hb i).2 (sv.time s - t)
      obtain ⟨d', g1', g2', g3'⟩ := (b1 c' δ' a' t l' hb' i').2 (sv.time s - t)
      rw [add_sub_cancel] at g1 g1'
      simp only [solverParts, hi, hi', time _ _ hs, g1, g1']
      exact ⟨_, _, rfl, rfl, ⟨_, _, rfl, rfl, hC.out _ _ _ _ _ _ _ hp ha hcur⟩, ⟨_, _, _, _, _, hp, ha, g2, g2'⟩, _, _, hC.next _ _ _ _ _ hp ha, g3, g3'⟩
    · rintro s s' u u' e hs ⟨w, w', rfl, rfl, hw⟩ he
      simp only [solverParts, products_ofFn, drive_scratch (scratch := scratch), drive_scratch (scratch := scratch')]
      exact loop _ _ _ _ _ hs hw he
    · rintro s s' u u' e hs ⟨w, w', rfl, rfl, hw⟩ he
      simp only [solverParts, products_ofFn, drive_scratch (scratch := scratch), drive_scratch (scratch := scratch')]
      exact last _ _ _ _ _ hs hw he
    · rintro s s' z z' u u' e hs hz ⟨w, w', rfl, rfl, hw⟩ he
      simp only [solverParts, products_ofFn]
      exact report _ _ _ _ _ _ _ (states _ _ hs) (states _ _ hz) hw he
    · rintro c c' ⟨δ, δ', hp, hh, hh'⟩
      exact ⟨⟨δ, δ', hp, r0 _ _ hh, r1 _ _ hh'⟩, reset _ _ _ _ hp hh hh'⟩
    · rintro y y' s s' ⟨x, x', rfl, rfl, hx⟩ hs
      simp only [solverParts, back, back']
      exact init _ _ _ _ hx hs
    · rintro y y' u u' e ⟨x, x', rfl, rfl, hx⟩ ⟨w, w', rfl, rfl, hw⟩
      simp only [products_ofFn]
      exact report0 _ _ _ _ _ hx hw
  obtain ⟨busy, h⟩ := key
  exact answers_abreast h tau ho ⟨rfl, rfl, hs, _, _, hp, hc, hc'⟩

/-- The switching times of two converters with one common end. -/
theorem sortedSet_common {l : List ℝ} (h : l.Pairwise (· < ·)) {l' : List ℝ} (h' : ∀ x ∈ l', x ∈ l) : sortedSet (l ++ l') = l := by
  have h1 := sortedSet_pairwise (l ++ l')
  have hp : (sortedSet (l ++ l')).Perm l := by
    refine (List.perm_ext_iff_of_nodup (h1.imp fun h => h.ne) (h.imp fun h => h.ne)).2 fun x => ?_
    simp only [mem_sortedSet, List.mem_append]
    exact ⟨fun h => h.elim id (h' x), Or.inl⟩
  exact hp.eq_of_pairwise (fun a b _ _ h h' => (lt_asymm h h').elim) h1 h

/-- A converter that is asked for actions of `asked` only: it switches at the end of the step, and for currents of `good` its outputs are
in `fine`. -/
structure Idles (M : Machine D A n) (T : ℝ) (pos : D → Prop) (asked : A → Prop) (good fine : (Fin n → ℝ) → Prop) : Prop where
  times : ∀ δ a, pos δ → asked a → ∀ x ∈ M.times δ a, x = T
  out : ∀ δ a o j, pos δ → asked a → good j → fine (M.out δ a o j)
  next : ∀ δ a o, pos δ → asked a → pos (M.next δ a o)

/-- a converter beside one that idles -/
theorem copies_beside {A0 A1 D0 D1 : Type} {n0 n1 : ℕ} {l : A' → A0} {r : A' → A1} {M0 : Machine D0 A0 n0} {M1 : Machine D1 A1 n1} {T : ℝ}
    {legal : A0 → Prop} {legal' : A' → Prop} {pos : D1 → Prop} {asked1 : A1 → Prop} {good fine : (Fin n1 → ℝ) → Prop}
    (h0 : ∀ δ a, (M0.times δ a).Pairwise (· < ·) ∧ T ∈ M0.times δ a) (h1 : Idles M1 T pos asked1 good fine) :
    Copies M0 (pair l r M0 M1) legal legal' (fun δ δ' => δ'.1 = δ ∧ pos δ'.2) (fun a a' => legal a ∧ legal' a' ∧ l a' = a ∧ asked1 (r a'))
      (fun i i' => ∃ j, good j ∧ i' = Fin.append i j) (fun w w' => ∃ v, fine v ∧ w' = Fin.append w v) := by
  refine ⟨fun a a' h => ⟨h.1, h.2.1⟩, ?_, ?_, ?_⟩
  · rintro δ ⟨δ0, δ1⟩ a a' ⟨hd, hp⟩ ⟨-, -, rfl, hr⟩
    simp only at hd hp
    subst hd
    simp only [pair]
    exact sortedSet_common (h0 _ _).1 fun x hx => by rw [h1.times _ _ hp hr x hx]; exact (h0 _ _).2
  · rintro δ ⟨δ0, δ1⟩ a a' o i i' ⟨hd, hp⟩ ⟨-, -, rfl, hr⟩ ⟨j, hj, rfl⟩
    simp only at hd hp
    subst hd
    refine ⟨M1.out δ1 (r a') o j, h1.out _ _ _ _ hp hr hj, ?_⟩
    simp only [pair, Fin.append_left, Fin.append_right]
  · rintro δ ⟨δ0, δ1⟩ a a' o ⟨hd, hp⟩ ⟨-, -, rfl, hr⟩
    simp only at hd hp
    subst hd
    exact ⟨rfl, h1.next _ _ _ hp hr⟩

end machines

/-! ## Squirrel cage motors are doubly fed motors with short circuited rotor -/

/-- all states of the first system, under the same names -/
def sameNames (names : List String) : List (String × String) := names.map fun n => (n, n)

theorem agree_div {names names' : List String} {told : List (String × String)} {l l' o o' : List ℝ} (hl : AgreeLimits names names' told l l')
    (h1 : o.length = names.length) (h2 : o'.length = names'.length) (h : ∀ n ∈ told, readState names o n.1 = readState names' o' n.2) :
    Echo (Agree names names' told) (divLimits o l) (divLimits o' l') := by
  obtain ⟨l1, l2, l3⟩ := hl
  unfold divLimits
  rw [if_pos (by rw [h1, l1]), if_pos (by rw [h2, l2])]
  refine ⟨by simp [h1, l1], by simp [h2, l2], fun n hn => ?_⟩
  rw [read_div, read_div, h n hn, l3 n hn]

theorem t23_equal (v : ℝ) : t23 (fun _ => v) = 0 := by
  funext k
  fin_cases k
  · simp [t23, Matrix.vecHead, Matrix.vecTail]
    ring
  · simp [t23, Matrix.vecHead, Matrix.vecTail]

theorem q_nothing (e : ℝ) : q 0 e = 0 := by
  funext k
  fin_cases k <;> simp [q]

theorem arg_wrapReset (z : ℂ) : wrapReset (Complex.arg z) = Complex.arg z := by
  unfold wrapReset
  rw [if_neg (not_lt.2 (Complex.arg_le_pi z))]

theorem scim_is_dfim_report {limits limits' : List ℝ} (hl : AgreeLimits scimStates dfimStates (sameNames scimStates) limits limits')
    (a b c d e f g h i j k l m n : ℝ) (p q r s t u v w x y : ℝ) :
    Echo (Agree scimStates dfimStates (sameNames scimStates)) (divLimits [a, b, c, d, e, f, g, h, i, j, k, l, m, n] limits)
      (divLimits [a, b, c, d, e, f, g, p, q, r, s, t, h, i, j, k, l, u, v, w, x, y, m, n] limits') := by
  refine agree_div hl rfl rfl fun o ho => ?_
  simp only [sameNames, scimStates_eq, List.map_cons, List.map_nil, List.mem_cons, List.not_mem_nil, or_false] at ho
  rcases ho with rfl | rfl | rfl | rfl | rfl | rfl | rfl | rfl | rfl | rfl | rfl | rfl | rfl | rfl <;>
    simp [scimStates_eq, dfimStates_eq, readState]

/-- the equation of the doubly fed motor -/
def dfimRhs (mp : ImParams ℝ) (x : Fin 5 → ℝ) (u : (Fin 2 → ℝ) × (Fin 2 → ℝ)) (w : ℝ) : Fin 5 → ℝ :=
  imOde mp x !![u.1 0, u.1 1; u.2 0, u.2 1] w

theorem scim_is_dfim_rhs (mp : ImParams ℝ) (load : AnyLoad) (v : Fin 2 → ℝ) :
    drive (imTorque mp) (dfimRhs mp) load none (v, 0) = drive (imTorque mp) (scimOde mp) load none v := rfl

theorem scale_append {n n' : ℕ} (w : Fin n → ℝ) (v : Fin n' → ℝ) (e : ℝ) :
    (fun k => Fin.append w v k * e) = Fin.append (fun k => w k * e) (fun k => v k * e) := by
  funext k
  refine Fin.addCases (fun k => ?_) (fun k => ?_) k <;> simp only [Fin.append_left, Fin.append_right]

/-- equal voltages at the three phases -/
def Shorted (v : Fin 3 → ℝ) : Prop := ∃ x, v = fun _ => x

/-- the rotor is short circuited by a converter beside that of the stator -/
theorem scim_beside (mp : ImParams ℝ) {A A' A1 C C' D D1 P S : Type} {pw : Power A C} {pw' : Power A' C'} {src : Source P} {load : AnyLoad}
    {sv : AnySolver (Fin (1 + 5) → ℝ) S} {scratch scratch' : Option (Fin (1 + 5) → ℝ)} {limits limits' : List ℝ} {M0 : Machine D A 3}
    {M1 : Machine D1 A1 3} {legal : A → Prop} {legal' : A' → Prop} {holds : C → D → Prop} {holds' : C' → D × D1 → Prop} {T : ℝ}
    {pos : D1 → Prop} {asked1 : A1 → Prop} {l : A' → A} {r : A' → A1}
    (hl : AgreeLimits scimStates dfimStates (sameNames scimStates) limits limits') (hS : Stiff src) (hV : OneVoltage src)
    (hM : Realises pw M0 legal holds) (hM' : Realises pw' (pair l r M0 M1) legal' holds')
    (h0 : ∀ δ a, (M0.times δ a).Pairwise (· < ·) ∧ T ∈ M0.times δ a) (h1 : Idles M1 T pos asked1 (fun _ => True) Shorted)
    (hr : ∀ c c' δ, holds c δ.1 → holds' c' δ → ∃ (w : Fin 3 → ℝ) (v : Fin 3 → ℝ), (pw.reset c).2 = List.ofFn w ∧ (pw'.reset c').2 = List.ofFn (Fin.append w v) ∧ Shorted v)
    (tau : ℝ) {ops : List (ImY ⊕ A)} {ops' : List (ImY ⊕ A')}
    (ho : List.Forall₂ (Alongside (fun y y' => ∃ x, y = imY x ∧ y' = imY x) fun a a' => legal a ∧ legal' a' ∧ l a' = a ∧ asked1 (r a')) ops ops')
    (t : ℝ) (k k' : ℕ) (s : S) (q : P) (c : C) (c' : C') (δ : D × D1) (hc : holds c δ.1) (hc' : holds' c' δ) (hδ : pos δ.2) :
    List.Forall₂ (Echo (Agree scimStates dfimStates (sameNames scimStates)))
      (answers (solverParts pw src load sv (imTorque mp) (scimOde mp) scratch imY ofImY) (asIs (scimFrame (imTq mp) false)) (scimReset (imTq mp)) tau
        limits ⟨t, k, s, c, q⟩ ops)
      (answers (solverParts pw' src load sv (imTorque mp) (dfimRhs mp) scratch' imY ofImY) (asIs (dfimFrame mp.lm mp.lsigr (imTq mp)))
        (dfimReset mp.lm mp.lsigr (imTq mp)) tau limits' ⟨t, k', s, c', q⟩ ops') := by
  have hU : ∀ (x : Fin (1 + 5) → ℝ) (w : Fin 3 → ℝ) (v : Fin 3 → ℝ) (e : ℝ), Shorted v →
      dfimU (imY x) (List.ofFn fun k => Fin.append w v k * e) = .ok (t23 fun k => w k * e, 0) := by
    rintro x w v e ⟨v, rfl⟩
    rw [scale_append]
    simp only [dfimU, (six_parts _).1, (six_parts _).2, Fin.append_left, Fin.append_right, three_ofFn, rotor_input]
    show Except.ok (t23 _, Motor.q (t23 fun _ => v * e) _) = _
    rw [t23_equal, q_nothing]
  refine answers_alike (pw := pw) (pw' := pw') (src := src) (load := load) (sv := sv) (sv' := sv) (torque := imTorque mp)
    (torque' := imTorque mp) (ode := scimOde mp) (ode' := dfimRhs mp) (scratch := scratch) (scratch' := scratch') (toY := imY) (toY' := imY)
    (ofY := ofImY) (ofY' := ofImY) (f := asIs (scimFrame (imTq mp) false)) (f' := asIs (dfimFrame mp.lm mp.lsigr (imTq mp)))
    (rep := scimReset (imTq mp)) (rep' := dfimReset mp.lm mp.lsigr (imTq mp)) (limits := limits) (limits' := limits') (levels := fun _ => True)
    (sol := Eq) (state := Eq) (obs := Agree scimStates dfimStates (sameNames scimStates))
    (outs0 := fun w w' => ∃ v, Shorted v ∧ w' = Fin.append w v)
    hM hM' (copies_beside (l := l) (r := r) (legal := legal) (legal' := legal') h0 h1) hS
    (fun q t w => by obtain ⟨e, he⟩ := hV.1 q t w; exact ⟨e, trivial, he⟩) hV.2
    (by rintro s _ rfl; rfl) (by rintro s _ rfl; rfl) (by rintro x _ s _ rfl rfl; rfl) imY_back imY_back (fun _ _ => rfl) (fun _ _ => rfl)
    ?_ ?_ ?_ ?_ ?_ ?_ tau (ho.imp ?_) t k k' s s q c c' δ.1 δ rfl ⟨rfl, hδ⟩ hc hc'
  · rintro x _ rfl
    refine ⟨t32 ![x 1, x 2], _, (l3_ofFn _), ?_, t32 (rotorCurrent mp.lm mp.lsigr (imY x)), trivial, rfl⟩
    rw [List.ofFn_fin_append, ← l3_ofFn, ← l3_ofFn]
    rfl
  · rintro s _ w _ e rfl ⟨v, hv, rfl⟩ -
    exact ⟨t23 fun k => w k * e, _, by simp only [asIs, scimFrame, three_ofFn]; rfl, hU _ _ _ _ hv, fun t => by rw [scim_is_dfim_rhs]⟩
  · rintro s _ w _ e rfl ⟨v, hv, rfl⟩ -
    exact ⟨t23 fun k => w k * e, _, by simp only [asIs, scimFrame, three_ofFn]; rfl, hU _ _ _ _ hv, fun t => by rw [scim_is_dfim_rhs]⟩
  · rintro x _ z _ w _ e rfl rfl ⟨v, hv, rfl⟩ -
    rw [scale_append]
    simp only [asIs, scimFrame, dfimFrame, (six_parts _).1, (six_parts _).2, Fin.append_left, Fin.append_right, three_ofFn]
    exact scim_is_dfim_report hl _ _ _ _ _ _ _ _ _ _ _ _ _ _ _ _ _ _ _ _ _ _ _ _
  · rintro c c' δ δ' ⟨hd, -⟩ hc hc'
    subst hd
    obtain ⟨w, v, e1, e2, hv⟩ := hr c c' δ' hc hc'
    exact ⟨w, _, e1, e2, v, hv, rfl⟩
  · rintro x _ w _ e rfl ⟨v, hv, rfl⟩
    rw [scale_append]
    simp only [scimReset, dfimReset, (six_parts _).1, (six_parts _).2, Fin.append_left, Fin.append_right, three_ofFn, ImY.field, arg_wrapReset]
    exact scim_is_dfim_report hl _ _ _ _ _ _ _ _ _ _ _ _ _ _ _ _ _ _ _ _ _ _ _ _
  · rintro a b (⟨x, rfl, rfl⟩ | h)
    · exact .reset ⟨x, x, rfl, rfl, rfl⟩
    · exact .step h

theorem times_fB6 (T I : ℝ) (δ : Fin 3 → ℕ) (a : ℕ) : ((fB6 T I).times δ a).Pairwise (· < ·) ∧ T ∈ (fB6 T I).times δ a := by
  refine ⟨sortedSet_pairwise _, ?_⟩
  simp only [fB6, mem_sortedSet, List.mem_append]
  refine .inl (.inl ?_)
  unfold legTimes
  split_ifs <;> simp

theorem times_smooth {A : Type} {n : ℕ} (T : ℝ) (out : A → (Fin n → ℝ) → Fin n → ℝ) (sup : A → (Fin n → ℝ) → ℝ) (δ : Unit) (a : A) :
    ((smooth T out sup).times δ a).Pairwise (· < ·) ∧ T ∈ (smooth T out sup).times δ a := by
  simp [smooth]

/-- one switching state with all phases at the same potential, kept -/
theorem b6_idles (T I : ℝ) {r : ℕ} (hr : r = 0 ∨ r = 7) :
    Idles (fB6 T I) T (fun δ => ∀ k, δ k = 0 ∨ δ k = b6Legs r k) (fun a => a = r) (fun _ => True) Shorted := by
  have hl : ∃ p, (p = 1 ∨ p = 2) ∧ ∀ k, b6Legs r k = p := by
    rcases hr with rfl | rfl
    · exact ⟨2, .inr rfl, fun k => by fin_cases k <;> decide⟩
    · exact ⟨1, .inl rfl, fun k => by fin_cases k <;> decide⟩
  obtain ⟨p, hp, hk⟩ := hl
  have hw : ∀ s, s = 0 ∨ s = p → ¬ Waits I s p := by
    rintro s h ⟨-, h2, h3, -⟩
    rcases h with h | h
    · exact h2 h
    · exact h3 h.symm
  have ht : ∀ s, s = 0 ∨ s = p → legTimes T I s p = [T] := fun s h => by
    unfold legTimes
    rw [if_neg (hw s h)]
  have hn : ∀ s o, s = 0 ∨ s = p → legNext T I s p o = p := fun s o h => by
    unfold legNext
    rw [if_neg fun h' => hw s h h'.1]
  refine ⟨?_, ?_, ?_⟩
  · rintro δ a hδ rfl x hx
    simp only [hk] at hδ
    simpa [fB6, mem_sortedSet, hk, ht _ (hδ 0), ht _ (hδ 1), ht _ (hδ 2)] using hx
  · rintro δ a o j hδ rfl -
    simp only [hk] at hδ
    refine ⟨legOut p 0 - 1 / 2, ?_⟩
    funext k
    simp only [fB6, hk, hn _ _ (hδ k)]
    rcases hp with rfl | rfl <;> simp [legOut]
  · rintro δ a o hδ rfl k
    simp only [hk] at hδ
    exact .inr (by simp only [fB6, hk, hn _ _ (hδ k)])

/-- three equal duty cycles -/
theorem cb6_idles (T : ℝ) :
    Idles (smooth T (cB6Out T 0) (cB6Sup T 0)) T (fun _ => True) (fun a => ∃ r, a = [r, r, r]) (fun _ => True) Shorted := by
  refine ⟨fun δ a _ _ x hx => by simpa [smooth] using hx, ?_, fun _ _ _ _ _ => trivial⟩
  rintro δ a o j - ⟨r, rfl⟩ -
  refine ⟨clip (clip (1 / 2 * (r + 1)) 0 1 - 0) 0 1 - 1 / 2, ?_⟩
  funext k
  fin_cases k <;> simp [smooth, cB6Out, dead]

theorem fresh_fB6 (T I : ℝ) : IsFB6 T I (.b6 (B6.new T I)) fun _ => 0 := by
  refine ⟨_, rfl, ?_, ?_, ?_⟩ <;> exact ⟨rfl, rfl, rfl, by norm_num⟩

theorem fresh_cB6 (T I : ℝ) : IsCB6 T I (.b6 (CB6.new T I)) := ⟨_, rfl, ⟨rfl, rfl⟩, ⟨rfl, rfl⟩, rfl, rfl⟩

/-- The rotor of a doubly fed motor is short circuited: all phases at the lower (0) or upper (7) rail of the supply. -/
def ShortFinite (r : ℕ) (a : ℕ) (a' : List ℕ) : Prop := a < 8 ∧ a' = [a, r]
/-- The rotor of a doubly fed motor is short circuited: the three duty cycles are equal. -/
def ShortContinuous (a a' : List ℝ) : Prop := a.length = 3 ∧ ∃ r, a' = a ++ [r, r, r]

/-- both systems are reset to the same state -/
def SameStart {X Y : Type} (toY : X → Y) (y y' : Y) : Prop := ∃ x, y = toY x ∧ y' = toY x

/-- C140 for induction motors: a doubly fed motor with short circuited rotor answers as the squirrel cage motor with the same parameters, in
all states the latter has.  Any solver, any load, any supply whose voltage does not depend on the current, any sampling and interlocking time
of the stator's converter. -/
theorem c140_scim (mp : ImParams ℝ) {P S : Type} (src : Source P) (load : AnyLoad) (sv : AnySolver (Fin (1 + 5) → ℝ) S)
    (scratch scratch' : Option (Fin (1 + 5) → ℝ)) (limits limits' : List ℝ) (T I I' : ℝ)
    (hl : AgreeLimits scimStates dfimStates (sameNames scimStates) limits limits') (hS : Stiff src) (hV : OneVoltage src)
    (tau t : ℝ) (k k' : ℕ) (s : S) (q : P) :
    (∀ r, r = 0 ∨ r = 7 → ∀ ops ops', List.Forall₂ (Alongside (SameStart imY) (ShortFinite r)) ops ops' →
      List.Forall₂ (Echo (Agree scimStates dfimStates (sameNames scimStates)))
        (answers (solverParts finitePower src load sv (imTorque mp) (scimOde mp) scratch imY ofImY) (asIs (scimFrame (imTq mp) false))
          (scimReset (imTq mp)) tau limits ⟨t, k, s, .b6 (B6.new T I), q⟩ ops)
        (answers (solverParts finiteMulti src load sv (imTorque mp) (dfimRhs mp) scratch' imY ofImY) (asIs (dfimFrame mp.lm mp.lsigr (imTq mp)))
          (dfimReset mp.lm mp.lsigr (imTq mp)) tau limits' ⟨t, k', s, [.b6 (B6.new T I), .b6 (B6.new T I')], q⟩ ops')) ∧
    ∀ ops ops', List.Forall₂ (Alongside (SameStart imY) ShortContinuous) ops ops' →
      List.Forall₂ (Echo (Agree scimStates dfimStates (sameNames scimStates)))
        (answers (solverParts contPower src load sv (imTorque mp) (scimOde mp) scratch imY ofImY) (asIs (scimFrame (imTq mp) false))
          (scimReset (imTq mp)) tau limits ⟨t, k, s, .b6 (CB6.new T I), q⟩ ops)
        (answers (solverParts contMulti src load sv (imTorque mp) (dfimRhs mp) scratch' imY ofImY) (asIs (dfimFrame mp.lm mp.lsigr (imTq mp)))
          (dfimReset mp.lm mp.lsigr (imTq mp)) tau limits' ⟨t, k', s, [.b6 (CB6.new T I), .b6 (CB6.new T 0)], q⟩ ops') := by
  constructor
  · intro r hr ops ops' ho
    have hr8 : r < 8 := by rcases hr with rfl | rfl <;> norm_num
    have hd : ∀ (T I : ℝ) (c : FConv ℝ) s, IsFB6 T I c s → c.dim = 3 := by
      rintro T I _ s ⟨c, rfl, -⟩
      rfl
    refine scim_beside mp hl hS hV (fB6_realises T I) (finitePair_realises (fB6_realises T I) (fB6_realises T I') (hd T I) (hd T I'))
      (times_fB6 T I) (b6_idles T I' hr) ?_ tau (ho.imp ?_) t k k' s q _ _ (fun _ => 0, fun _ => 0) (fresh_fB6 T I)
      ⟨_, _, rfl, fresh_fB6 T I, fresh_fB6 T I'⟩ fun _ => .inl rfl
    · rintro c c' δ ⟨b, rfl, -⟩ ⟨_, _, rfl, ⟨c0, rfl, -⟩, c1, rfl, -⟩
      refine ⟨fun _ => 0 - 1 / 2, fun _ => 0 - 1 / 2, ?_, ?_, _, rfl⟩
      · rfl
      · rw [List.ofFn_fin_append]
        rfl
    · rintro a b (h | ⟨h, rfl⟩)
      · exact .reset h
      · exact .step ⟨h, ⟨_, _, rfl, h, hr8⟩, rfl, rfl⟩
  · intro ops ops' ho
    have hd : ∀ (T I : ℝ) (c : CConv ℝ) (_ : Unit), IsCB6 T I c → c.dim = 3 := by
      rintro T I _ - ⟨c, rfl, -⟩
      rfl
    refine scim_beside mp hl hS hV (cB6_realises T I) (contPair_realises (cB6_realises T I) (cB6_realises T 0) (hd T I) (hd T 0))
      (times_smooth T _ _) (cb6_idles T) ?_ tau (ho.imp ?_) t k k' s q _ _ ((), ()) (fresh_cB6 T I)
      ⟨_, _, rfl, fresh_cB6 T I, fresh_cB6 T 0⟩ trivial
    · rintro c c' δ ⟨b, rfl, -⟩ ⟨_, _, rfl, ⟨c0, rfl, -⟩, c1, rfl, -⟩
      refine ⟨fun _ => 0 - 1 / 2, fun _ => 0 - 1 / 2, ?_, ?_, _, rfl⟩
      · rfl
      · rw [List.ofFn_fin_append]
        rfl
    · rintro a b (h | ⟨h, r, rfl⟩)
      · exact .reset h
      · refine .step ⟨h, ?_, ?_, r, ?_⟩
        · simp [h]
        · exact List.take_left' h
        · exact List.drop_left' h

/-! ## Reluctance motors are permanent magnet motors without magnet -/

/-- C140 for synchronous motors: the reluctance motor is the motor with permanent magnets of flux zero.  Any converter, supply, load and solver,
both control spaces, all states. -/
theorem c140_synrm (mp : SyncParams ℝ) (h : mp.psiP = 0) {A C P S : Type} (pw : Power A C) (src : Source P) (load : AnyLoad)
    (sv : AnySolver (Fin (1 + 3) → ℝ) S) (scratch scratch' : Option (Fin (1 + 3) → ℝ)) (act : SyncY → A → A) (limits : List ℝ) (tau : ℝ)
    (st : St ℝ S C P) (ops : List (SyncY ⊕ A)) (dq : Bool) :
    let f := fun tq : SyncY → ℝ => ({ asIs (A := A) (syncFrame tq dq) with action := act } : Frame ℝ SyncY (Fin 2 → ℝ) A)
    let tq := fun (torque : (Fin 3 → ℝ) → ℝ) (y : SyncY) => torque ![y.i 0, y.i 1, y.eps]
    answers (solverParts pw src load sv (synrmTorque mp) (syncOde (synrmConstants mp)) scratch syncY ofSyncY) (f (tq (synrmTorque mp)))
        (syncReset (tq (synrmTorque mp))) tau limits st ops =
      answers (solverParts pw src load sv (pmsmTorque mp) (syncOde (pmsmConstants mp)) scratch' syncY ofSyncY) (f (tq (pmsmTorque mp)))
        (syncReset (tq (pmsmTorque mp))) tau limits st ops := by
  have h1 : synrmTorque mp = pmsmTorque mp := by
    funext x
    simp only [synrmTorque, pmsmTorque, h]
    ring
  have h2 : synrmConstants mp = pmsmConstants mp := by
    simp only [synrmConstants, pmsmConstants, h, neg_zero, zero_mul]
  have h3 : solverParts (A := A) pw src load sv (pmsmTorque mp) (syncOde (pmsmConstants mp)) scratch syncY ofSyncY =
      solverParts pw src load sv (pmsmTorque mp) (syncOde (pmsmConstants mp)) scratch' syncY ofSyncY := by
    simp only [solverParts, drive_scratch (scratch := scratch), drive_scratch (scratch := scratch')]
  simp only [h1, h2, h3]

/-! ## Shunt motors are externally excited motors with both circuits at one voltage -/

theorem dc_pairs_report {names names' : List String} {told : List (String × String)} {limits limits' : List ℝ}
    (hl : AgreeLimits names names' told limits limits') {o o' : List ℝ} (h1 : o.length = names.length) (h2 : o'.length = names'.length)
    (h : ∀ n ∈ told, readState names o n.1 = readState names' o' n.2) {r r' : Except Err (List ℝ)} (e : r = .ok o) (e' : r' = .ok o') :
    Echo (Agree names names' told) (r.bind fun s => divLimits s limits) (r'.bind fun s => divLimits s limits') := by
  subst e e'
  exact agree_div hl h1 h2 h

/-- the states that shunt and externally excited motors have in common -/
def shuntTold : List (String × String) :=
  [("omega", "omega"), ("torque", "torque"), ("i_a", "i_a"), ("i_e", "i_e"), ("u", "u_a"), ("u", "u_e"), ("u_sup", "u_sup")]

theorem shuntStates_eq : shuntStates = ["omega", "torque", "i_a", "i_e", "u", "u_sup"] := rfl
theorem extExStates_eq : extExStates = ["omega", "torque", "i_a", "i_e", "u_a", "u_e", "u_sup"] := rfl

theorem shunt_rhs (mp : DcParams ℝ) (load : AnyLoad) (w : Fin 1 → ℝ) (e : ℝ) :
    drive (dcTorque mp) (fun x (u : List ℝ) o => dcOde mp x (fun i => u.getD i 0) o) load none (List.ofFn fun k => Fin.append w w k * e) =
      drive (dcTorque mp) (fun x (u : List ℝ) o => shuntOde mp x (fun i => u.getD i 0) o) load none (List.ofFn fun k => w k * e) := by
  have h : ∀ x o, dcOde mp x (fun i => (List.ofFn fun k => Fin.append w w k * e).getD i 0) o =
      shuntOde mp x (fun i => (List.ofFn fun k => w k * e).getD i 0) o := by
    intro x o
    rw [scale_append, List.ofFn_fin_append]
    simp [shuntOde, dcOde]
  funext t x
  simp only [drive, systemEquation, h]

/-- what a pair of equal converters does with equal actions -/
theorem copies_twice {A A' D : Type} {l r : A' → A} {M : Machine D A 1} {legal : A → Prop} {legal' : A' → Prop}
    (h0 : ∀ δ a, (M.times δ a).Pairwise (· < ·)) (h1 : ∀ δ a o i j, legal a → M.out δ a o i = M.out δ a o j) {all : A → Prop}
    (hall : ∀ a, legal a → all a) :
    Copies M (pair l r M M) all legal' (fun δ δ' => δ' = (δ, δ)) (fun a a' => legal a ∧ legal' a' ∧ l a' = a ∧ r a' = a) (fun _ _ => True)
      (fun w w' => w' = Fin.append w w) := by
  refine ⟨fun a a' h => ⟨hall _ h.1, h.2.1⟩, ?_, ?_, ?_⟩
  · rintro δ _ a a' rfl ⟨-, -, e1, e2⟩
    simp only [pair, e1, e2]
    exact sortedSet_common (h0 _ _) fun _ h => h
  · rintro δ _ a a' o i i' rfl ⟨ha, -, e1, e2⟩ -
    simp only [pair, e1, e2]
    rw [h1 δ a o _ i ha, h1 δ a o (fun k => i' (Fin.natAdd 1 k)) i ha]
  · rintro δ _ a a' o rfl ⟨-, -, e1, e2⟩
    simp only [pair, e1, e2]

theorem shunt_twice (mp : DcParams ℝ) {A A' C C' D P S : Type} {pw : Power A C} {pw' : Power A' C'} {src : Source P} {load : AnyLoad}
    {sv : AnySolver (Fin (1 + 2) → ℝ) S} {scratch scratch' : Option (Fin (1 + 2) → ℝ)} {limits limits' : List ℝ} {M : Machine D A 1}
    {legal all : A → Prop} {legal' : A' → Prop} {holds : C → D → Prop} {holds' : C' → D × D → Prop} {l r : A' → A}
    (hl : AgreeLimits shuntStates extExStates shuntTold limits limits') (hS : Stiff src) (hV : OneVoltage src)
    (hM : Realises pw M all holds) (hM' : Realises pw' (pair l r M M) legal' holds') (hall : ∀ a, legal a → all a)
    (h0 : ∀ δ a, (M.times δ a).Pairwise (· < ·)) (h1 : ∀ δ a o i j, legal a → M.out δ a o i = M.out δ a o j)
    (hr : ∀ c c' δ, holds c δ → holds' c' (δ, δ) → (pw.reset c).2 = [0] ∧ (pw'.reset c').2 = [0, 0])
    (tau : ℝ) {ops : List (DcY ℝ ⊕ A)} {ops' : List (DcY ℝ ⊕ A')}
    (ho : List.Forall₂ (Alongside (SameStart (dcY (m := 2))) fun a a' => legal a ∧ legal' a' ∧ l a' = a ∧ r a' = a) ops ops')
    (t : ℝ) (k k' : ℕ) (s : S) (q : P) (c : C) (c' : C') (δ : D) (hc : holds c δ) (hc' : holds' c' (δ, δ)) :
    List.Forall₂ (Echo (Agree shuntStates extExStates shuntTold))
      (answers (solverParts pw src load sv (dcTorque mp) (fun x (u : List ℝ) o => shuntOde mp x (fun i => u.getD i 0) o) scratch dcY ofDcY)
        (dcFrame (fun l => [l.getD 0 0 + l.getD 1 0]) (dcTq (dcTorque mp)) [0, 1] 1 1) (dcResetReport (dcTq (dcTorque mp)) [0, 1]) tau limits
        ⟨t, k, s, c, q⟩ ops)
      (answers (solverParts pw' src load sv (dcTorque mp) (fun x (u : List ℝ) o => dcOde mp x (fun i => u.getD i 0) o) scratch' dcY ofDcY)
        (dcFrame id (dcTq (dcTorque mp)) [0, 1] 2 1) (dcResetReport (dcTq (dcTorque mp)) [0, 1]) tau limits' ⟨t, k', s, c', q⟩ ops') := by
  have hread : ∀ a b c d e f : ℝ, ∀ n ∈ shuntTold, readState shuntStates [a, b, c, d, e, f] n.1 = readState extExStates [a, b, c, d, e, e, f] n.2 := by
    intro a b c d e f n hn
    simp only [shuntTold, List.mem_cons, List.not_mem_nil, or_false] at hn
    rcases hn with rfl | rfl | rfl | rfl | rfl | rfl | rfl <;> simp [shuntStates_eq, extExStates_eq, readState]
  refine answers_alike (pw := pw) (pw' := pw') (src := src) (load := load) (sv := sv) (sv' := sv) (toY := dcY (m := 2)) (toY' := dcY (m := 2))
    (ofY := ofDcY) (ofY' := ofDcY) (levels := fun _ => True) (sol := Eq) (state := Eq) (outs0 := fun w w' => w = (fun _ => 0) ∧ w' = fun _ => 0)
    hM hM' (copies_twice (l := l) (r := r) (legal := legal) (legal' := legal') h0 h1 hall) hS
    (fun q t w => by obtain ⟨e, he⟩ := hV.1 q t w; exact ⟨e, trivial, he⟩) hV.2
    (by rintro s _ rfl; rfl) (by rintro s _ rfl; rfl) (by rintro x _ s _ rfl rfl; rfl) back_dc back_dc (fun _ _ => rfl) (fun _ _ => rfl)
    ?_ ?_ ?_ ?_ ?_ ?_ tau (ho.imp ?_) t k k' s s q c c' δ (δ, δ) rfl rfl hc hc'
  · rintro x _ rfl
    exact ⟨fun _ => (dcY x).motor.getD 0 0 + (dcY x).motor.getD 1 0, fun i => x (Fin.natAdd 1 i), by simp [dcFrame], rfl, trivial⟩
  · rintro s _ w _ e rfl rfl -
    exact ⟨_, _, rfl, rfl, fun t => by rw [shunt_rhs]⟩
  · rintro s _ w _ e rfl rfl -
    exact ⟨_, _, rfl, rfl, fun t => by rw [shunt_rhs]⟩
  · rintro x _ z _ w _ e rfl rfl rfl -
    refine dc_pairs_report hl (by simp [shuntStates_eq]) (by simp [extExStates_eq]) (hread (z 0) (dcTq (dcTorque mp) (dcY z).motor) (z 1) (z 2) (w 0 * e) e) ?_ ?_
    · simp [dcFrame, dcReport, dcY, getE, assign, Bind.bind, Except.bind, Pure.pure, Except.pure, List.mapM_cons, List.mapM_nil]
    · rw [scale_append, List.ofFn_fin_append]
      simp [dcFrame, dcReport, dcY, getE, assign, Bind.bind, Except.bind, Pure.pure, Except.pure, List.mapM_cons, List.mapM_nil]
  · rintro c c' δ _ rfl hc hc'
    obtain ⟨e1, e2⟩ := hr c c' δ hc hc'
    exact ⟨_, _, e1.trans (by simp), e2.trans (by simp), rfl, rfl⟩
  · rintro x _ w w' e rfl ⟨rfl, rfl⟩
    refine dc_pairs_report hl (by simp [shuntStates_eq]) (by simp [extExStates_eq]) (hread (x 0) (dcTq (dcTorque mp) (dcY x).motor) (x 1) (x 2) 0 e) ?_ ?_
    · simp [dcResetReport, dcY, getE, Bind.bind, Except.bind, Pure.pure, Except.pure, List.mapM_cons, List.mapM_nil]
    · simp [dcResetReport, dcY, getE, Bind.bind, Except.bind, Pure.pure, Except.pure, List.mapM_cons, List.mapM_nil]
  · rintro a b (⟨x, rfl, rfl⟩ | h)
    · exact .reset ⟨x, x, rfl, rfl, rfl⟩
    · exact .step h

theorem no_wait (T : ℝ) (s a : ℕ) : legTimes T 0 s a = [T] ∧ ∀ o, legNext T 0 s a o = a := by
  have h : ¬ Waits 0 s a := fun h => h.2.2.2 rfl
  exact ⟨by simp only [legTimes, h, if_false], fun o => by simp only [legNext, h, false_and, if_false]⟩

/-- both circuits of an externally excited motor get the same action -/
def TwiceFinite (ok : ℕ → Prop) (a : ℕ) (a' : List ℕ) : Prop := ok a ∧ a' = [a, a]
/-- both circuits of an externally excited motor get the same action -/
def TwiceContinuous (a a' : List ℝ) : Prop := ∃ x, a = [x] ∧ a' = [x, x]

/-- C140 for shunt motors: an externally excited motor whose two converters get the same action answers as the shunt motor with the same parameters,
in all states; both voltages of the former are that of the latter.  Two quadrant converters (the finite one with a closed switch) and four
quadrant converters, without interlocking time: their voltage does not depend on the current.  Any solver, any load, any supply whose voltage does
not depend on the current. -/
theorem c140_shunt (mp : DcParams ℝ) {P S : Type} (src : Source P) (load : AnyLoad) (sv : AnySolver (Fin (1 + 2) → ℝ) S)
    (scratch scratch' : Option (Fin (1 + 2) → ℝ)) (limits limits' : List ℝ) (T : ℝ)
    (hl : AgreeLimits shuntStates extExStates shuntTold limits limits') (hS : Stiff src) (hV : OneVoltage src)
    (tau t : ℝ) (k k' : ℕ) (s : S) (q : P) :
    (∀ (c : FConv ℝ) (ok : ℕ → Prop), (c = .two (TwoQC.new T 0) ∧ ok = fun a => a = 1 ∨ a = 2) ∨ (c = .four (FourQC.new T 0) ∧ ok = fun a => a < 4) →
      ∀ ops ops', List.Forall₂ (Alongside (SameStart (dcY (m := 2))) (TwiceFinite ok)) ops ops' →
      List.Forall₂ (Echo (Agree shuntStates extExStates shuntTold))
        (answers (solverParts finitePower src load sv (dcTorque mp) (fun x (u : List ℝ) o => shuntOde mp x (fun i => u.getD i 0) o) scratch dcY ofDcY)
          (dcFrame (fun l => [l.getD 0 0 + l.getD 1 0]) (dcTq (dcTorque mp)) [0, 1] 1 1) (dcResetReport (dcTq (dcTorque mp)) [0, 1]) tau limits
          ⟨t, k, s, c, q⟩ ops)
        (answers (solverParts finiteMulti src load sv (dcTorque mp) (fun x (u : List ℝ) o => dcOde mp x (fun i => u.getD i 0) o) scratch' dcY ofDcY)
          (dcFrame id (dcTq (dcTorque mp)) [0, 1] 2 1) (dcResetReport (dcTq (dcTorque mp)) [0, 1]) tau limits' ⟨t, k', s, [c, c], q⟩ ops')) ∧
    ∀ c : CConv ℝ, c = .two (CTwo.new T 0) ∨ c = .four (CFour.new T 0) →
      ∀ ops ops', List.Forall₂ (Alongside (SameStart (dcY (m := 2))) TwiceContinuous) ops ops' →
      List.Forall₂ (Echo (Agree shuntStates extExStates shuntTold))
        (answers (solverParts contPower src load sv (dcTorque mp) (fun x (u : List ℝ) o => shuntOde mp x (fun i => u.getD i 0) o) scratch dcY ofDcY)
          (dcFrame (fun l => [l.getD 0 0 + l.getD 1 0]) (dcTq (dcTorque mp)) [0, 1] 1 1) (dcResetReport (dcTq (dcTorque mp)) [0, 1]) tau limits
          ⟨t, k, s, c, q⟩ ops)
        (answers (solverParts contMulti src load sv (dcTorque mp) (fun x (u : List ℝ) o => dcOde mp x (fun i => u.getD i 0) o) scratch' dcY ofDcY)
          (dcFrame id (dcTq (dcTorque mp)) [0, 1] 2 1) (dcResetReport (dcTq (dcTorque mp)) [0, 1]) tau limits' ⟨t, k', s, [c, c], q⟩ ops') := by
  constructor
  · rintro c ok (⟨rfl, rfl⟩ | ⟨rfl, rfl⟩) ops ops' ho
    · have hd : ∀ (c : FConv ℝ) s, IsFTwo T 0 c s → c.dim = 1 := by
        rintro _ s ⟨c, rfl, -⟩
        rfl
      have hf : IsFTwo T 0 (.two (TwoQC.new T 0)) 0 := ⟨_, rfl, rfl, rfl, rfl, by norm_num⟩
      refine shunt_twice mp (legal := fun a => a = 1 ∨ a = 2) hl hS hV (fTwo_realises T 0)
        (finitePair_realises (fTwo_realises T 0) (fTwo_realises T 0) hd hd) (by rintro a (rfl | rfl) <;> norm_num)
        (fun δ a => by simp [fTwo, (no_wait T _ _).1]) (fun δ a o i j h => ?_) ?_ tau (ho.imp ?_) t k k' s q _ _ 0 hf ⟨_, _, rfl, hf, hf⟩
      · funext _
        simp only [fTwo, (no_wait T _ _).2]
        exact legOut_closed (by omega) _ _
      · rintro _ _ δ ⟨c, rfl, -⟩ ⟨_, _, rfl, ⟨c0, rfl, -⟩, c1, rfl, -⟩
        exact ⟨rfl, rfl⟩
      · rintro a b (h | ⟨h, rfl⟩)
        · exact .reset h
        · exact .step ⟨h, ⟨_, _, rfl, by omega, by omega⟩, rfl, rfl⟩
    · have hd : ∀ (c : FConv ℝ) s, IsFFour T 0 c s → c.dim = 1 := by
        rintro _ s ⟨c, rfl, -⟩
        rfl
      have hf : IsFFour T 0 (.four (FourQC.new T 0)) (0, 0) := ⟨_, rfl, ⟨rfl, rfl, rfl, by norm_num⟩, rfl, rfl, rfl, by norm_num⟩
      refine shunt_twice mp (legal := fun a => a < 4) hl hS hV (fFour_realises T 0)
        (finitePair_realises (fFour_realises T 0) (fFour_realises T 0) hd hd) (fun _ h => h)
        (fun δ a => sortedSet_pairwise _) (fun δ a o i j h => ?_) ?_ tau (ho.imp ?_) t k k' s q _ _ (0, 0) hf ⟨_, _, rfl, hf, hf⟩
      · funext _
        simp only [fFour, (no_wait T _ _).2]
        rw [legOut_closed (fourLegs_ne a).1 (i 0) (j 0), legOut_closed (fourLegs_ne a).2 (-i 0) (-j 0)]
      · rintro _ _ δ ⟨c, rfl, -⟩ ⟨_, _, rfl, ⟨c0, rfl, -⟩, c1, rfl, -⟩
        refine ⟨?_, ?_⟩ <;> simp [finitePower, finiteMulti, multiReset, FConv.reset, FourQC.reset, TwoQC.reset]
      · rintro a b (h | ⟨h, rfl⟩)
        · exact .reset h
        · exact .step ⟨h, ⟨_, _, rfl, h, h⟩, rfl, rfl⟩
  · rintro c (rfl | rfl) ops ops' ho
    · have hd : ∀ (c : CConv ℝ) (_ : Unit), IsCTwo T 0 c → c.dim = 1 := by
        rintro _ - ⟨c, rfl, -⟩
        rfl
      have hf : IsCTwo T 0 (.two (CTwo.new T 0)) := ⟨_, rfl, rfl, rfl⟩
      refine shunt_twice mp (legal := fun a => a.length = 1) hl hS hV (cTwo_realises T 0)
        (contPair_realises (cTwo_realises T 0) (cTwo_realises T 0) hd hd) (fun _ h => h)
        (fun δ a => (times_smooth T _ _ δ a).1) (fun δ a o i j h => ?_) ?_ tau (ho.imp ?_) t k k' s q _ _ () hf ⟨_, _, rfl, hf, hf⟩
      · funext _
        simp [smooth, cTwoOut, dead]
      · rintro _ _ δ ⟨c, rfl, -⟩ ⟨_, _, rfl, ⟨c0, rfl, -⟩, c1, rfl, -⟩
        exact ⟨rfl, rfl⟩
      · rintro a b (h | ⟨x, rfl, rfl⟩)
        · exact .reset h
        · exact .step ⟨rfl, rfl, rfl, rfl⟩
    · have hd : ∀ (c : CConv ℝ) (_ : Unit), IsCFour T 0 c → c.dim = 1 := by
        rintro _ - ⟨c, rfl, -⟩
        rfl
      have hf : IsCFour T 0 (.four (CFour.new T 0)) := ⟨_, rfl, ⟨rfl, rfl⟩, rfl, rfl⟩
      refine shunt_twice mp (legal := fun a => a.length = 1) hl hS hV (cFour_realises T 0)
        (contPair_realises (cFour_realises T 0) (cFour_realises T 0) hd hd) (fun _ h => h)
        (fun δ a => (times_smooth T _ _ δ a).1) (fun δ a o i j h => ?_) ?_ tau (ho.imp ?_) t k k' s q _ _ () hf ⟨_, _, rfl, hf, hf⟩
      · funext _
        simp [smooth, cFourOut, dead]
      · rintro _ _ δ ⟨c, rfl, -⟩ ⟨_, _, rfl, ⟨c0, rfl, -⟩, c1, rfl, -⟩
        exact ⟨rfl, rfl⟩
      · rintro a b (h | ⟨x, rfl, rfl⟩)
        · exact .reset h
        · exact .step ⟨rfl, rfl, rfl, rfl⟩

/-! ## Permanently excited motors are externally excited motors with constant exciting current -/

/-- with the exciting current `ie` -/
def withField (ie : ℝ) (x : Fin (1 + 1) → ℝ) : Fin (1 + 2) → ℝ := ![x 0, x 1, ie]

theorem withField_add (ie h : ℝ) (x v : Fin (1 + 1) → ℝ) : withField ie (x + h • v) = withField ie x + h • withField 0 v := by
  funext i
  fin_cases i <;> simp [withField]

/-- the solver's states -/
def FieldTwin (ie : ℝ) (s : Euler ℝ (Fin (1 + 1) → ℝ)) (s' : Euler ℝ (Fin (1 + 2) → ℝ)) : Prop :=
  s'.t = s.t ∧ s'.nsteps = s.nsteps ∧ s'.y = withField ie s.y

theorem nstepsLoop_field {ie : ℝ} {g : ℝ → (Fin (1 + 1) → ℝ) → Fin (1 + 1) → ℝ} {g' : ℝ → (Fin (1 + 2) → ℝ) → Fin (1 + 2) → ℝ}
    (h : ∀ t x, g' t (withField ie x) = withField 0 (g t x)) (tau : ℝ) (k : ℕ) (t : ℝ) (x : Fin (1 + 1) → ℝ) :
    nstepsLoop g' tau k t (withField ie x) = withField ie (nstepsLoop g tau k t x) := by
  induction k generalizing t x with
  | zero => rfl
  | succ k ih =>
    simp only [nstepsLoop]
    rw [h, ← ih, withField_add]

theorem integrate_field {ie : ℝ} {g : ℝ → (Fin (1 + 1) → ℝ) → Fin (1 + 1) → ℝ} {g' : ℝ → (Fin (1 + 2) → ℝ) → Fin (1 + 2) → ℝ}
    (h : ∀ t x, g' t (withField ie x) = withField 0 (g t x)) {s : Euler ℝ (Fin (1 + 1) → ℝ)} {s' : Euler ℝ (Fin (1 + 2) → ℝ)}
    (hs : FieldTwin ie s s') (t : ℝ) : FieldTwin ie (s.integrate g t).1 (s'.integrate g' t).1 := by
  obtain ⟨s1, s2, s3⟩ := s
  obtain ⟨s1', s2', s3'⟩ := s'
  obtain ⟨h1, h2, h3⟩ := hs
  simp only at h1 h2 h3
  subst h1 h2 h3
  unfold Euler.integrate
  by_cases e1 : s3' = 1
  · simp only [e1, if_true, Euler.integrateOneStep]
    refine ⟨rfl, rfl, ?_⟩
    simp only
    rw [h, withField_add]
  · by_cases e0 : s3' = 0
    · simp only [e0]
      exact ⟨rfl, rfl, rfl⟩
    · simp only [e1, e0, if_false, Euler.integrateNsteps]
      exact ⟨rfl, rfl, nstepsLoop_field h _ _ _ _⟩

theorem permEx_rhs (mp : DcParams ℝ) (load : AnyLoad) {ie a b : ℝ} (hb : b = mp.re * ie) (t : ℝ) (x : Fin (1 + 1) → ℝ) :
    drive (dcTorque mp) (fun x (u : List ℝ) o => dcOde mp x (fun i => u.getD i 0) o) load none [a, b] t (withField ie x) =
      withField 0 (drive (permExTorque ⟨mp.ra, mp.la, mp.lePrime * ie⟩)
        (fun x (u : List ℝ) o => permExOde ⟨mp.ra, mp.la, mp.lePrime * ie⟩ x (fun i => u.getD i 0) o) load none [a] t x) := by
  have h1 : (fun i : Fin 1 => withField ie x (Fin.castAdd 2 i)) = fun i => x (Fin.castAdd 1 i) := by
    funext i
    rw [Subsingleton.elim i 0]
    rfl
  have h2 : dcTorque mp (fun i => withField ie x (Fin.natAdd 1 i)) = permExTorque ⟨mp.ra, mp.la, mp.lePrime * ie⟩ fun i => x (Fin.natAdd 1 i) := by
    show mp.lePrime * x 1 * ie = mp.lePrime * ie * x 1
    ring
  have h3 : ∀ o, dcOde mp (fun i => withField ie x (Fin.natAdd 1 i)) (fun i => [a, b].getD i 0) o =
      ![permExOde ⟨mp.ra, mp.la, mp.lePrime * ie⟩ (fun i => x (Fin.natAdd 1 i)) (fun i => [a].getD i 0) o 0, 0] := by
    intro o
    have e : (fun i => withField ie x (Fin.natAdd 1 i)) = ![x 1, ie] := by
      funext i
      fin_cases i <;> rfl
    have e' : (fun i : Fin 1 => x (Fin.natAdd 1 i)) = ![x 1] := by
      funext i
      fin_cases i
      rfl
    rw [e, e']
    funext i
    fin_cases i
    · simp [dcOde, dcConstants, permExOde, permExConstants, rowsDiv, Matrix.mulVec, dotProduct, Fin.sum_univ_succ]
      ring
    · simp [dcOde, dcConstants, rowsDiv, Matrix.mulVec, dotProduct, Fin.sum_univ_succ, hb]
      ring
  simp only [drive, systemEquation, h1, h2, h3]
  funext i
  fin_cases i
  · rfl
  · rfl
  · rfl

/-- the states that permanently and externally excited motors have in common -/
def permExTold : List (String × String) := [("omega", "omega"), ("torque", "torque"), ("i", "i_a"), ("u", "u_a"), ("u_sup", "u_sup")]

/-- the externally excited motor starts with the exciting current `ie` -/
def FieldStart (ie : ℝ) (y y' : DcY ℝ) : Prop := ∃ x : Fin (1 + 1) → ℝ, y = dcY x ∧ y' = dcY (withField ie x)

/-- the exciting current is kept by a converter beside that of the armature -/
theorem permEx_beside (mp : DcParams ℝ) {A A' A1 C C' D D1 P : Type} {pw : Power A C} {pw' : Power A' C'} {src : Source P} {load : AnyLoad}
    {scratch : Option (Fin (1 + 1) → ℝ)} {scratch' : Option (Fin (1 + 2) → ℝ)} {limits limits' : List ℝ} {M0 : Machine D A 1} {ie v w0 : ℝ}
    {M1 : Machine D1 A1 1} {legal : A → Prop} {legal' : A' → Prop} {holds : C → D → Prop} {holds' : C' → D × D1 → Prop} {T : ℝ}
    {pos : D1 → Prop} {asked1 : A1 → Prop} {l : A' → A} {r : A' → A1}
    (hl : AgreeLimits dcOneStates extExStates permExTold limits limits') (hS : Stiff src) (hV : FixedVoltage src v) (hw : w0 * v = mp.re * ie)
    (hM : Realises pw M0 legal holds) (hM' : Realises pw' (pair l r M0 M1) legal' holds')
    (h0 : ∀ δ a, (M0.times δ a).Pairwise (· < ·) ∧ T ∈ M0.times δ a) (h1 : Idles M1 T pos asked1 (fun j => j = fun _ => ie) fun j => j = fun _ => w0)
    (hr : ∀ c c' δ, holds c δ.1 → holds' c' δ → (pw.reset c).2 = [0] ∧ (pw'.reset c').2 = [0, 0])
    (tau : ℝ) {ops : List (DcY ℝ ⊕ A)} {ops' : List (DcY ℝ ⊕ A')}
    (ho : List.Forall₂ (Alongside (FieldStart ie) fun a a' => legal a ∧ legal' a' ∧ l a' = a ∧ asked1 (r a')) ops ops')
    (t : ℝ) (k k' : ℕ) (s : Euler ℝ (Fin (1 + 1) → ℝ)) (s' : Euler ℝ (Fin (1 + 2) → ℝ)) (hs : FieldTwin ie s s') (q : P) (c : C) (c' : C')
    (δ : D × D1) (hc : holds c δ.1) (hc' : holds' c' δ) (hδ : pos δ.2) :
    let pe : PermExParams ℝ := ⟨mp.ra, mp.la, mp.lePrime * ie⟩
    List.Forall₂ (Echo (Agree dcOneStates extExStates permExTold))
      (answers (solverParts pw src load (eulerSolver 1) (permExTorque pe) (fun x (u : List ℝ) o => permExOde pe x (fun i => u.getD i 0) o) scratch dcY ofDcY)
        (dcFrame id (dcTq (permExTorque pe)) [0] 1 1) (dcResetReport (dcTq (permExTorque pe)) [0]) tau limits ⟨t, k, s, c, q⟩ ops)
      (answers (solverParts pw' src load (eulerSolver 2) (dcTorque mp) (fun x (u : List ℝ) o => dcOde mp x (fun i => u.getD i 0) o) scratch' dcY ofDcY)
        (dcFrame id (dcTq (dcTorque mp)) [0, 1] 2 1) (dcResetReport (dcTq (dcTorque mp)) [0, 1]) tau limits' ⟨t, k', s', c', q⟩ ops') := by
  intro pe
  have e1 : dcOneStates = ["omega", "torque", "i", "u", "u_sup"] := rfl
  have hread : ∀ a b b' c d e f g : ℝ, b' = b → ∀ n ∈ permExTold,
      readState dcOneStates [a, b, c, d, e] n.1 = readState extExStates [a, b', c, f, d, g, e] n.2 := by
    rintro a b _ c d e f g rfl n hn
    simp only [permExTold, List.mem_cons, List.not_mem_nil, or_false] at hn
    rcases hn with rfl | rfl | rfl | rfl | rfl <;> simp [e1, extExStates_eq, readState]
  have htq : ∀ x : Fin (1 + 1) → ℝ, dcTq (dcTorque mp) (dcY (withField ie x)).motor = dcTq (permExTorque pe) (dcY x).motor := by
    intro x
    show mp.lePrime * x 1 * ie = mp.lePrime * ie * x 1
    ring
  refine answers_alike (pw := pw) (pw' := pw') (src := src) (load := load) (sv := eulerSolver 1) (sv' := eulerSolver 2) (toY := dcY (m := 1))
    (toY' := dcY (m := 2)) (ofY := ofDcY) (ofY' := ofDcY) (levels := fun e => e = v) (sol := FieldTwin ie) (state := fun x x' => x' = withField ie x)
    (outs0 := fun w w' => w = (fun _ => 0) ∧ w' = fun _ => 0)
    hM hM' (copies_beside (l := l) (r := r) (legal := legal) (legal' := legal') h0 h1) hS
    (fun q t w => ⟨v, rfl, hV.1 q t w⟩) (fun q => ⟨v, hV.2 q⟩) (fun s s' h => h.1) (fun s s' h => h.2.2)
    (by rintro x _ s s' rfl h; exact ⟨rfl, h.2.1, rfl⟩) back_dc back_dc (fun _ _ => rfl) (fun _ _ => rfl)
    ?_ ?_ ?_ ?_ ?_ ?_ tau (ho.imp ?_) t k k' s s' q c c' δ.1 δ hs ⟨rfl, hδ⟩ hc hc'
  · rintro x _ rfl
    refine ⟨fun i => x (Fin.natAdd 1 i), fun i => withField ie x (Fin.natAdd 1 i), rfl, rfl, fun _ => ie, rfl, ?_⟩
    funext i
    fin_cases i <;> rfl
  · rintro s s' w _ e h ⟨_, rfl, rfl⟩ rfl
    refine ⟨_, _, rfl, rfl, fun t => integrate_field (fun t x => ?_) h t⟩
    rw [scale_append, List.ofFn_fin_append]
    simpa using permEx_rhs mp load hw t x
  · rintro s s' w _ e h ⟨_, rfl, rfl⟩ rfl
    refine ⟨_, _, rfl, rfl, fun t => integrate_field (fun t x => ?_) h t⟩
    rw [scale_append, List.ofFn_fin_append]
    simpa using permEx_rhs mp load hw t x
  · rintro x _ z _ w _ e rfl rfl ⟨_, rfl, rfl⟩ rfl
    refine dc_pairs_report hl (by simp [e1]) (by simp [extExStates_eq])
      (hread (z 0) (dcTq (permExTorque pe) (dcY z).motor) _ (z 1) (w 0 * e) e ie (w0 * e) (htq z)) ?_ ?_
    · simp [dcFrame, dcReport, dcY, getE, assign, Bind.bind, Except.bind, Pure.pure, Except.pure, List.mapM_cons, List.mapM_nil]
    · rw [scale_append, List.ofFn_fin_append]
      simp [dcFrame, dcReport, dcY, getE, assign, Bind.bind, Except.bind, Pure.pure, Except.pure, List.mapM_cons, List.mapM_nil, withField]
  · rintro c c' δ δ' ⟨rfl, -⟩ hc hc'
    obtain ⟨e1, e2⟩ := hr c c' δ' hc hc'
    exact ⟨_, _, e1.trans (by simp), e2.trans (by simp), rfl, rfl⟩
  · rintro x _ w w' e rfl ⟨rfl, rfl⟩
    refine dc_pairs_report hl (by simp [e1]) (by simp [extExStates_eq])
      (hread (x 0) (dcTq (permExTorque pe) (dcY x).motor) _ (x 1) 0 e ie 0 (htq x)) ?_ ?_
    · simp [dcResetReport, dcY, getE, Bind.bind, Except.bind, Pure.pure, Except.pure, List.mapM_cons, List.mapM_nil]
    · simp [dcResetReport, dcY, getE, Bind.bind, Except.bind, Pure.pure, Except.pure, List.mapM_cons, List.mapM_nil, withField]
  · rintro a b (⟨x, rfl, rfl⟩ | h)
    · exact .reset ⟨x, _, rfl, rfl, rfl⟩
    · exact .step h

/-- the field winding stays connected to the supply -/
def FieldFinite (a : ℕ) (a' : List ℕ) : Prop := a < 4 ∧ a' = [a, 1]
/-- the field winding has the duty cycle `d` -/
def FieldContinuous (d : ℝ) (a a' : List ℝ) : Prop := ∃ x, a = [x] ∧ a' = [x, d]

/-- C140 for permanently excited motors: an externally excited motor whose exciting current `ie` is the stationary one of its constant exciting
voltage answers as the permanently excited motor with the flux `l_e_prime * ie`, in all states the latter has.  Armature: a four quadrant converter with
any interlocking time.  Field: a one quadrant converter that stays closed, or any duty cycle of a four quadrant converter without interlocking time.
Any load, any ideal supply, the toolbox's own solver with any number of intervals. -/
theorem c140_permex (mp : DcParams ℝ) {P : Type} (src : Source P) (load : AnyLoad) (scratch : Option (Fin (1 + 1) → ℝ))
    (scratch' : Option (Fin (1 + 2) → ℝ)) (limits limits' : List ℝ) (T I ie v : ℝ)
    (hl : AgreeLimits dcOneStates extExStates permExTold limits limits') (hS : Stiff src) (hV : FixedVoltage src v)
    (tau t : ℝ) (k k' : ℕ) (s : Euler ℝ (Fin (1 + 1) → ℝ)) (s' : Euler ℝ (Fin (1 + 2) → ℝ)) (hs : FieldTwin ie s s') (q : P) :
    let pe : PermExParams ℝ := ⟨mp.ra, mp.la, mp.lePrime * ie⟩
    (0 ≤ ie → v = mp.re * ie → ∀ ops ops', List.Forall₂ (Alongside (FieldStart ie) FieldFinite) ops ops' →
      List.Forall₂ (Echo (Agree dcOneStates extExStates permExTold))
        (answers (solverParts finitePower src load (eulerSolver 1) (permExTorque pe) (fun x (u : List ℝ) o => permExOde pe x (fun i => u.getD i 0) o)
          scratch dcY ofDcY) (dcFrame id (dcTq (permExTorque pe)) [0] 1 1) (dcResetReport (dcTq (permExTorque pe)) [0]) tau limits
          ⟨t, k, s, .four (FourQC.new T I), q⟩ ops)
        (answers (solverParts finiteMulti src load (eulerSolver 2) (dcTorque mp) (fun x (u : List ℝ) o => dcOde mp x (fun i => u.getD i 0) o)
          scratch' dcY ofDcY) (dcFrame id (dcTq (dcTorque mp)) [0, 1] 2 1) (dcResetReport (dcTq (dcTorque mp)) [0, 1]) tau limits'
          ⟨t, k', s', [.four (FourQC.new T I), .one (OneQC.new T)], q⟩ ops')) ∧
    ∀ d, -1 ≤ d → d ≤ 1 → d * v = mp.re * ie → ∀ ops ops', List.Forall₂ (Alongside (FieldStart ie) (FieldContinuous d)) ops ops' →
      List.Forall₂ (Echo (Agree dcOneStates extExStates permExTold))
        (answers (solverParts contPower src load (eulerSolver 1) (permExTorque pe) (fun x (u : List ℝ) o => permExOde pe x (fun i => u.getD i 0) o)
          scratch dcY ofDcY) (dcFrame id (dcTq (permExTorque pe)) [0] 1 1) (dcResetReport (dcTq (permExTorque pe)) [0]) tau limits
          ⟨t, k, s, .four (CFour.new T I), q⟩ ops)
        (answers (solverParts contMulti src load (eulerSolver 2) (dcTorque mp) (fun x (u : List ℝ) o => dcOde mp x (fun i => u.getD i 0) o)
          scratch' dcY ofDcY) (dcFrame id (dcTq (dcTorque mp)) [0, 1] 2 1) (dcResetReport (dcTq (dcTorque mp)) [0, 1]) tau limits'
          ⟨t, k', s', [.four (CFour.new T I), .four (CFour.new T 0)], q⟩ ops') := by
  constructor
  · intro hie hv ops ops' ho
    have hd : ∀ (c : FConv ℝ) s, IsFFour T I c s → c.dim = 1 := by
      rintro _ s ⟨c, rfl, -⟩
      rfl
    have hd' : ∀ (c : FConv ℝ) (_ : Unit), IsFOne T c → c.dim = 1 := by
      rintro _ - ⟨c, rfl, -⟩
      rfl
    have hf : IsFFour T I (.four (FourQC.new T I)) (0, 0) := ⟨_, rfl, ⟨rfl, rfl, rfl, by norm_num⟩, rfl, rfl, rfl, by norm_num⟩
    have hi : Idles (fOne T) T (fun _ => True) (fun a => a = 1) (fun j => j = fun _ => ie) fun j => j = fun _ => 1 := by
      refine ⟨fun δ a _ _ x hx => by simpa [fOne, smooth] using hx, ?_, fun _ _ _ _ _ => trivial⟩
      rintro δ a o j - rfl rfl
      funext k
      simp [fOne, smooth, fOneOut]
    refine permEx_beside mp (w0 := 1) (T := T) hl hS hV (by rw [one_mul, hv]) (fFour_realises T I)
      (finitePair_realises (fFour_realises T I) (fOne_realises T) hd hd') (fun δ a => ⟨sortedSet_pairwise _, ?_⟩) hi ?_ tau (ho.imp ?_) t k k' s s' hs
      q _ _ ((0, 0), ()) hf ⟨_, _, rfl, hf, _, rfl, rfl⟩ trivial
    · simp only [fFour, mem_sortedSet, List.mem_append]
      refine .inl ?_
      unfold legTimes
      split_ifs <;> simp
    · rintro _ _ δ ⟨c, rfl, -⟩ ⟨_, _, rfl, ⟨c0, rfl, -⟩, c1, rfl, -⟩
      refine ⟨?_, ?_⟩ <;> simp [finitePower, finiteMulti, multiReset, FConv.reset, FourQC.reset, TwoQC.reset, OneQC.reset]
    · rintro a b (h | ⟨h, rfl⟩)
      · exact .reset h
      · exact .step ⟨h, ⟨_, _, rfl, h, by norm_num⟩, rfl, rfl⟩
  · intro d hd1 hd2 hv ops ops' ho
    have hd : ∀ I (c : CConv ℝ) (_ : Unit), IsCFour T I c → c.dim = 1 := by
      rintro I _ - ⟨c, rfl, -⟩
      rfl
    have hf : ∀ I, IsCFour T I (.four (CFour.new T I)) := fun I => ⟨_, rfl, ⟨rfl, rfl⟩, rfl, rfl⟩
    have hi : Idles (smooth T (cFourOut T 0) (cFourSup T 0)) T (fun _ => True) (fun a => a = [d]) (fun j => j = fun _ => ie) fun j => j = fun _ => d := by
      refine ⟨fun δ a _ _ x hx => by simpa [smooth] using hx, ?_, fun _ _ _ _ _ => trivial⟩
      rintro δ a o j - rfl -
      funext k
      simp only [smooth, cFourOut, dead, mul_zero, sub_zero, List.headD_cons]
      rw [clip_of_mem (x := 1 / 2 * (d + 1)) (by linarith) (by linarith), clip_of_mem (x := 1 / 2 * (d + 1)) (by linarith) (by linarith),
        clip_of_mem (x := -(1 / 2) * (d - 1)) (by linarith) (by linarith), clip_of_mem (x := -(1 / 2) * (d - 1)) (by linarith) (by linarith)]
      ring
    refine permEx_beside mp (w0 := d) (T := T) hl hS hV hv (cFour_realises T I)
      (contPair_realises (cFour_realises T I) (cFour_realises T 0) (hd I) (hd 0)) (times_smooth T _ _) hi ?_ tau (ho.imp ?_) t k k' s s' hs
      q _ _ ((), ()) (hf I) ⟨_, _, rfl, hf I, hf 0⟩ trivial
    · rintro _ _ δ ⟨c, rfl, -⟩ ⟨_, _, rfl, ⟨c0, rfl, -⟩, c1, rfl, -⟩
      exact ⟨rfl, rfl⟩
    · rintro a b (h | ⟨x, rfl, rfl⟩)
      · exact .reset h
      · exact .step ⟨rfl, rfl, rfl, rfl⟩

/-! ## Examples -/

theorem ideal_stiff (v : ℝ) : Stiff (idealSource v) ∧ OneVoltage (idealSource v) ∧ FixedVoltage (idealSource v) v := by
  exact ⟨fun _ _ _ _ => rfl, ⟨fun _ _ _ => ⟨_, rfl⟩, fun _ => ⟨_, rfl⟩⟩, fun _ _ _ => rfl, fun _ => rfl⟩

/-- A squirrel cage motor and a doubly fed one with its rotor at the upper rail, at 400 V: reset at different states of the run and any switching. -/
example (mp : ImParams ℝ) (T I : ℝ) (as : List ℕ) (h : ∀ a ∈ as, a < 8) (x : Fin (1 + 5) → ℝ) (s : Euler ℝ (Fin (1 + 5) → ℝ)) :
    List.Forall₂ (Echo (Agree scimStates dfimStates (sameNames scimStates)))
      (answers (solverParts finitePower (idealSource 400) (.poly 0 1 0 1 1 []) (eulerSolver 5) (imTorque mp) (scimOde mp) none imY ofImY)
        (asIs (scimFrame (imTq mp) false)) (scimReset (imTq mp)) T (List.replicate 14 2) ⟨0, 0, s, .b6 (B6.new T I), ()⟩ (.inl (imY x) :: as.map .inr))
      (answers (solverParts finiteMulti (idealSource 400) (.poly 0 1 0 1 1 []) (eulerSolver 5) (imTorque mp) (dfimRhs mp) none imY ofImY)
        (asIs (dfimFrame mp.lm mp.lsigr (imTq mp))) (dfimReset mp.lm mp.lsigr (imTq mp)) T (List.replicate 24 2)
        ⟨0, 0, s, [.b6 (B6.new T I), .b6 (B6.new T I)], ()⟩ (.inl (imY x) :: as.map fun a => .inr [a, 7])) := by
  refine (c140_scim mp (idealSource 400) _ _ none none _ _ T I I ?_ (ideal_stiff 400).1 (ideal_stiff 400).2.1 T 0 0 0 s ()).1 7 (.inr rfl) _ _
    (.cons (.reset ⟨x, rfl, rfl⟩) ?_)
  · refine ⟨by simp [scimStates_eq], by simp [dfimStates_eq], fun n hn => ?_⟩
    simp only [sameNames, List.mem_map] at hn
    obtain ⟨m, hm, rfl⟩ := hn
    rw [scimStates_eq] at hm
    fin_cases hm <;> simp [scimStates_eq, dfimStates_eq, readState]
  · rw [List.forall₂_map_left_iff, List.forall₂_map_right_iff, List.forall₂_same]
    exact fun a ha => .step ⟨h a ha, rfl⟩

/-- An externally excited motor of 2 Ω in the field circuit at 60 V: 15 A at the duty cycle 1/2. -/
example (T I : ℝ) (as : List ℝ) (x : Fin (1 + 1) → ℝ) :
    List.Forall₂ (Echo (Agree dcOneStates extExStates permExTold))
      (answers (solverParts contPower (idealSource 60) (.poly 0 1 0 1 1 []) (eulerSolver 1) (permExTorque ⟨1, 1, 15⟩)
        (fun x (u : List ℝ) o => permExOde ⟨1, 1, 15⟩ x (fun i => u.getD i 0) o) none dcY ofDcY) (dcFrame id (dcTq (permExTorque ⟨1, 1, 15⟩)) [0] 1 1)
        (dcResetReport (dcTq (permExTorque ⟨1, 1, 15⟩)) [0]) T [1, 2, 3, 4, 5] ⟨0, 0, ⟨0, x, 3⟩, .four (CFour.new T I), ()⟩
        (.inl (dcY x) :: as.map fun a => .inr [a]))
      (answers (solverParts contMulti (idealSource 60) (.poly 0 1 0 1 1 []) (eulerSolver 2) (dcTorque ⟨1, 2, 1, 1, 1⟩)
        (fun x (u : List ℝ) o => dcOde ⟨1, 2, 1, 1, 1⟩ x (fun i => u.getD i 0) o) none dcY ofDcY) (dcFrame id (dcTq (dcTorque ⟨1, 2, 1, 1, 1⟩)) [0, 1] 2 1)
        (dcResetReport (dcTq (dcTorque ⟨1, 2, 1, 1, 1⟩)) [0, 1]) T [1, 2, 3, 7, 4, 8, 5]
        ⟨0, 0, ⟨0, withField 15 x, 3⟩, [.four (CFour.new T I), .four (CFour.new T 0)], ()⟩
        (.inl (dcY (withField 15 x)) :: as.map fun a => .inr [a, 1 / 2])) := by
  have := (c140_permex ⟨1, 2, 1, 1, 1⟩ (idealSource 60) (.poly 0 1 0 1 1 []) none none [1, 2, 3, 4, 5] [1, 2, 3, 7, 4, 8, 5] T I 15 60 ?_
    (ideal_stiff 60).1 (ideal_stiff 60).2.2 T 0 0 0 ⟨0, x, 3⟩ ⟨0, withField 15 x, 3⟩ ⟨rfl, rfl, rfl⟩ ()).2 (1 / 2) (by norm_num) (by norm_num)
    (by norm_num) (.inl (dcY x) :: as.map fun a => .inr [a]) (.inl (dcY (withField 15 x)) :: as.map fun a => .inr [a, 1 / 2])
    (.cons (.reset ⟨x, rfl, rfl⟩) ?_)
  · simpa only [one_mul] using this
  · refine ⟨rfl, rfl, fun n hn => ?_⟩
    have e1 : dcOneStates = ["omega", "torque", "i", "u", "u_sup"] := rfl
    simp only [permExTold, List.mem_cons, List.not_mem_nil, or_false] at hn
    rcases hn with rfl | rfl | rfl | rfl | rfl <;> simp [e1, extExStates_eq, readState]
  · rw [List.forall₂_map_left_iff, List.forall₂_map_right_iff, List.forall₂_same]
    exact fun a _ => .step ⟨a, rfl, rfl⟩

/-- A shunt motor at a four quadrant converter and an externally excited motor at two of them. -/
example (mp : DcParams ℝ) (T : ℝ) (as : List ℕ) (h : ∀ a ∈ as, a < 4) (x : Fin (1 + 2) → ℝ) (s : Euler ℝ (Fin (1 + 2) → ℝ)) :
    List.Forall₂ (Echo (Agree shuntStates extExStates shuntTold))
      (answers (solverParts finitePower (idealSource 60) (.poly 0 1 0 1 1 []) (eulerSolver 2) (dcTorque mp)
        (fun x (u : List ℝ) o => shuntOde mp x (fun i => u.getD i 0) o) none dcY ofDcY)
        (dcFrame (fun l => [l.getD 0 0 + l.getD 1 0]) (dcTq (dcTorque mp)) [0, 1] 1 1) (dcResetReport (dcTq (dcTorque mp)) [0, 1]) T [1, 2, 3, 4, 5, 6]
        ⟨0, 0, s, .four (FourQC.new T 0), ()⟩ (.inl (dcY x) :: as.map .inr))
      (answers (solverParts finiteMulti (idealSource 60) (.poly 0 1 0 1 1 []) (eulerSolver 2) (dcTorque mp)
        (fun x (u : List ℝ) o => dcOde mp x (fun i => u.getD i 0) o) none dcY ofDcY)
        (dcFrame id (dcTq (dcTorque mp)) [0, 1] 2 1) (dcResetReport (dcTq (dcTorque mp)) [0, 1]) T [1, 2, 3, 4, 5, 5, 6]
        ⟨0, 0, s, [.four (FourQC.new T 0), .four (FourQC.new T 0)], ()⟩ (.inl (dcY x) :: as.map fun a => .inr [a, a])) := by
  refine (c140_shunt mp (idealSource 60) _ _ none none _ _ T ?_ (ideal_stiff 60).1 (ideal_stiff 60).2.1 T 0 0 0 s ()).1 _ _ (.inr ⟨rfl, rfl⟩) _ _
    (.cons (.reset ⟨x, rfl, rfl⟩) ?_)
  · refine ⟨rfl, rfl, fun n hn => ?_⟩
    simp only [shuntTold, List.mem_cons, List.not_mem_nil, or_false] at hn
    rcases hn with rfl | rfl | rfl | rfl | rfl | rfl | rfl <;> simp [shuntStates_eq, extExStates_eq, readState]
  · rw [List.forall₂_map_left_iff, List.forall₂_map_right_iff, List.forall₂_same]
    exact fun a ha => .step ⟨h a ha, rfl⟩

/-- A reluctance motor in dq coordinates: the actions are the transformed ones of both systems. -/
example (p ld lq rs : ℝ) {P S : Type} (src : Source P) (load : AnyLoad) (sv : AnySolver (Fin (1 + 3) → ℝ) S) (act : SyncY → List ℝ → List ℝ)
    (limits : List ℝ) (tau : ℝ) (st : St ℝ S (CConv ℝ) P) (ops : List (SyncY ⊕ List ℝ)) :
    let mp : SyncParams ℝ := ⟨p, ld, lq, rs, 0⟩
    let tq := fun (torque : (Fin 3 → ℝ) → ℝ) (y : SyncY) => torque ![y.i 0, y.i 1, y.eps]
    answers (solverParts contPower src load sv (synrmTorque mp) (syncOde (synrmConstants mp)) none syncY ofSyncY)
        { asIs (A := List ℝ) (syncFrame (tq (synrmTorque mp)) true) with action := act } (syncReset (tq (synrmTorque mp))) tau limits st ops =
      answers (solverParts contPower src load sv (pmsmTorque mp) (syncOde (pmsmConstants mp)) none syncY ofSyncY)
        { asIs (A := List ℝ) (syncFrame (tq (pmsmTorque mp)) true) with action := act } (syncReset (tq (pmsmTorque mp))) tau limits st ops :=
  c140_synrm _ rfl contPower src load sv none none act limits tau st ops true

end

end GEM.Props
