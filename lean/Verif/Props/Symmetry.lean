import Verif.Props.Episodes
import Verif.Props.Voltages

/-!
# C135, C136: interchanging the phases, reversing the direction

An episode of a drive and the episode of the same drive with interchanged phases (or the opposite direction) go on in the same way.
-/

set_option linter.unusedSectionVars false

namespace GEM.Props

noncomputable section

open GEM GEM.Sys GEM.Conv GEM.Motor GEM.Solver GEM.Load

/-! ## Statement -/

/-- The entry of the state with this name. -/
def readState : List String → List ℝ → String → ℝ
  | n :: ns, x :: xs, m => if n = m then x else readState ns xs m
  | _, _, _ => 0

/-- Both calls raise the same exception, or both return and the values are related. -/
def Echo {α β : Type} (R : α → β → Prop) : Except Err α → Except Err β → Prop
  | .ok a, .ok b => R a b
  | .error e, .error e' => e = e'
  | _, _ => False

/-- `o'` is `o` with exchanged names and signs, in the entries `told`: entry `n` of `o'` is `sgn n` times entry `partner n` of `o`.  The
angle (of which the entry is the part `1 / limit`) is `sgn` times the angle in `o`, turned by `turn`, up to full turns. -/
structure Image (names told : List String) (limits : List ℝ) (partner : String → String) (sgn : String → ℝ) (turn : ℝ) (o o' : List ℝ) :
    Prop where
  length : o.length = names.length ∧ o'.length = names.length
  entry : ∀ n ∈ told, n ≠ "epsilon" → readState names o' n = sgn n * readState names o (partner n)
  angle : "epsilon" ∈ told → ∃ k : ℤ, readState names o' "epsilon" * readState names limits "epsilon" =
    sgn "epsilon" * (readState names o "epsilon" * readState names limits "epsilon") + turn + 2 * Real.pi * k

/-- Calls of both systems: resets to states `x` and `move x` of the solvers, steps with actions of which one is the image of the
other. -/
inductive Paired {X Y A : Type} (toY : X → Y) (move : X → X) (asked : A → A → Prop) : Y ⊕ A → Y ⊕ A → Prop
  | reset (x : X) : Paired toY move asked (.inl (toY x)) (.inl (toY (move x)))
  | step {a a' : A} (h : asked a a') : Paired toY move asked (.inr a) (.inr a')

/-! ## Converters -/

/-- Two converters of which one does to interchanged currents what the other does: `rest` relates their states between the steps, `busy`
within, `mate` the actions. -/
structure Twin {A C : Type} (pw : Power A C) (rest busy : C → C → Prop) (mate : A → A → Prop) {n : ℕ}
    (τ : (Fin n → ℝ) → Fin n → ℝ) : Prop where
  set : ∀ c c' a a' t, rest c c' → mate a a' → (∃ ts, (pw.setAction c a t).2 = .ok ts ∧ (pw.setAction c' a' t).2 = .ok ts) ∧
    busy (pw.setAction c a t).1 (pw.setAction c' a' t).1
  draw : ∀ c c' i, busy c c' → pw.iSup c (List.ofFn i) = pw.iSup c' (List.ofFn (τ i))
  conv : ∀ c c' i t, busy c c' → (∃ w, (pw.convert c (List.ofFn i) t).2 = .ok (List.ofFn w) ∧
      (pw.convert c' (List.ofFn (τ i)) t).2 = .ok (List.ofFn (τ w))) ∧
    busy (pw.convert c (List.ofFn i) t).1 (pw.convert c' (List.ofFn (τ i)) t).1
  free : ∀ c c', busy c c' → rest c c'
  reset : ∀ c c', rest c c' → rest (pw.reset c).1 (pw.reset c').1 ∧
    ∃ w, (pw.reset c).2 = List.ofFn w ∧ (pw.reset c').2 = List.ofFn (τ w)

/-! ## Systems -/

section systems

variable {m n : ℕ} {Y U A C P : Type} {pw : Power A C} {src : Source P} {torque : (Fin m → ℝ) → ℝ}
  {ode : (Fin m → ℝ) → U → ℝ → Fin m → ℝ} {load load' : AnyLoad}
  {scratch scratch' : Option (Fin (1 + m) → ℝ)} {toY : (Fin (1 + m) → ℝ) → Y} {ofY : Y → Fin (1 + m) → ℝ} {f : Frame ℝ Y U A}
  {rep : Y → List ℝ → List ℝ → Except Err (List ℝ)} {limits : List ℝ} {τ : (Fin n → ℝ) → Fin n → ℝ}
  {lin : (Fin (1 + m) → ℝ) →ₗ[ℝ] Fin (1 + m) → ℝ} {shift : Fin (1 + m) → ℝ} {onU : U → U} {mate asked : A → A → Prop}
  {obs : List ℝ → List ℝ → Prop} {rest busy : C → C → Prop}

/-- a supply with one voltage -/
def OneVoltage (src : Source P) : Prop :=
  (∀ p t i, ∃ v, (src.getVoltage p t i).2 = [v]) ∧ ∀ p, ∃ v, (src.reset p).2 = [v]

/-- What a system does with the interchanged quantities. -/
structure Frames (f : Frame ℝ Y U A) (rep : Y → List ℝ → List ℝ → Except Err (List ℝ)) (limits : List ℝ)
    (toY : (Fin (1 + m) → ℝ) → Y) (move : (Fin (1 + m) → ℝ) → Fin (1 + m) → ℝ) (τ : (Fin n → ℝ) → Fin n → ℝ) (onU : U → U)
    (mate asked : A → A → Prop) (obs : List ℝ → List ℝ → Prop) : Prop where
  hom : ∀ w v, τ (fun k => w k * v) = fun k => τ w k * v
  cur : ∀ x, ∃ i, f.iIn (toY x) = List.ofFn i ∧ f.iIn (toY (move x)) = List.ofFn (τ i)
  act : ∀ x a a', asked a a' → mate (f.action (toY x) a) (f.action (toY (move x)) a')
  loop : ∀ x w, Echo (fun u u' => u' = onU u) (f.loopU (toY x) (List.ofFn w)) (f.loopU (toY (move x)) (List.ofFn (τ w)))
  last : ∀ x w, Echo (fun u u' => u' = onU u) (f.lastU (toY x) (List.ofFn w)) (f.lastU (toY (move x)) (List.ofFn (τ w)))
  report : ∀ x z w v, Echo obs ((f.report (toY x) (toY z) (List.ofFn w) [v]).bind fun s => divLimits s limits)
    ((f.report (toY (move x)) (toY (move z)) (List.ofFn (τ w)) [v]).bind fun s => divLimits s limits)
  start : ∀ x w v, Echo obs ((rep (toY x) (List.ofFn w) [v]).bind fun s => divLimits s limits)
    ((rep (toY (move x)) (List.ofFn (τ w)) [v]).bind fun s => divLimits s limits)

/-- states of both solvers -/
def SolverTwin (move : (Fin (1 + m) → ℝ) → Fin (1 + m) → ℝ) (s s' : Euler ℝ (Fin (1 + m) → ℝ)) : Prop :=
  s'.t = s.t ∧ s'.nsteps = s.nsteps ∧ s'.y = move s.y

/-- states of both systems -/
structure SystemTwin (move : (Fin (1 + m) → ℝ) → Fin (1 + m) → ℝ) (conv : C → C → Prop) (st st' : St ℝ (Euler ℝ (Fin (1 + m) → ℝ)) C P) :
    Prop where
  t : st'.t = st.t
  supply : st'.supply = st.supply
  solver : SolverTwin move st.solver st'.solver
  conv : conv st.conv st'.conv

theorem nstepsLoop_twin {g g' : ℝ → (Fin (1 + m) → ℝ) → Fin (1 + m) → ℝ} (h : ∀ t x, g' t (lin x + shift) = lin (g t x)) (tau : ℝ) (k : ℕ)
    (t : ℝ) (x : Fin (1 + m) → ℝ) : nstepsLoop g' tau k t (lin x + shift) = lin (nstepsLoop g tau k t x) + shift := by
  induction k generalizing t x with
  | zero => rfl
  | succ k ih =>
    simp only [nstepsLoop]
    rw [h, ← ih]
    congr 1
    rw [map_add, map_smul]
    abel

theorem integrate_twin {g g' : ℝ → (Fin (1 + m) → ℝ) → Fin (1 + m) → ℝ} (h : ∀ t x, g' t (lin x + shift) = lin (g t x))
    {s s' : Euler ℝ (Fin (1 + m) → ℝ)} (hs : SolverTwin (fun x => lin x + shift) s s') (t : ℝ) :
    SolverTwin (fun x => lin x + shift) (s.integrate g t).1 (s'.integrate g' t).1 := by
  obtain ⟨s1, s2, s3⟩ := s
  obtain ⟨s1', s2', s3'⟩ := s'
  obtain ⟨h1, h2, h3⟩ := hs
  simp only at h1 h2 h3
  subst h1 h2 h3
  unfold Euler.integrate
  by_cases e1 : s3' = 1
  · simp only [e1, if_true, Euler.integrateOneStep]
    refine ⟨rfl, rfl, ?_⟩
    simp only
    rw [h, map_add, map_smul]
    abel
  · by_cases e0 : s3' = 0
    · simp only [e0]
      exact ⟨rfl, rfl, rfl⟩
    · simp only [e1, e0, if_false, Euler.integrateNsteps]
      exact ⟨rfl, rfl, nstepsLoop_twin h _ _ _ _⟩

/-- the hypotheses of the theorem on histories -/
structure Mirrored (src : Source P) (pw : Power A C) (rest busy : C → C → Prop) (mate asked : A → A → Prop) (τ : (Fin n → ℝ) → Fin n → ℝ)
    (f : Frame ℝ Y U A) (rep : Y → List ℝ → List ℝ → Except Err (List ℝ)) (limits : List ℝ) (toY : (Fin (1 + m) → ℝ) → Y)
    (ofY : Y → Fin (1 + m) → ℝ) (lin : (Fin (1 + m) → ℝ) →ₗ[ℝ] Fin (1 + m) → ℝ) (shift : Fin (1 + m) → ℝ) (onU : U → U)
    (torque : (Fin m → ℝ) → ℝ) (ode : (Fin m → ℝ) → U → ℝ → Fin m → ℝ) (load load' : AnyLoad) (obs : List ℝ → List ℝ → Prop) : Prop where
  one : OneVoltage src
  twin : Twin pw rest busy mate τ
  frames : Frames f rep limits toY (fun x => lin x + shift) τ onU mate asked obs
  back : ∀ x, ofY (toY x) = x
  rhs : ∀ u t x, drive torque ode load' none (onU u) t (lin x + shift) = lin (drive torque ode load none u t x)

variable {move : (Fin (1 + m) → ℝ) → Fin (1 + m) → ℝ}

theorem drive_scratch (torque : (Fin m → ℝ) → ℝ) (ode : (Fin m → ℝ) → U → ℝ → Fin m → ℝ) (load : AnyLoad) (scratch : Option (Fin (1 + m) → ℝ))
    (u : U) : drive torque ode load scratch u = drive torque ode load none u := by
  funext t x
  unfold drive
  rw [systemEquation_scratch]

theorem piece_twin (h : Mirrored src pw rest busy mate asked τ f rep limits toY ofY lin shift onU torque ode load load' obs)
    {toU : Y → List ℝ → Except Err U}
    (hU : ∀ x w, Echo (fun u u' => u' = onU u) (toU (toY x) (List.ofFn w)) (toU (toY (lin x + shift)) (List.ofFn (τ w))))
    {st st' : St ℝ (Euler ℝ (Fin (1 + m) → ℝ)) C P} (hst : SystemTwin (fun x => lin x + shift) busy st st') (t : ℝ) :
    SystemTwin (fun x => lin x + shift) busy (piece (eulerParts pw src load torque ode scratch toY ofY) f toU st t).1
      (piece (eulerParts pw src load' torque ode scratch' toY ofY) f toU st' t).1 ∧
    Echo (fun a b => ∃ w v, a = (List.ofFn w, [v]) ∧ b = (List.ofFn (τ w), [v]))
      (piece (eulerParts pw src load torque ode scratch toY ofY) f toU st t).2
      (piece (eulerParts pw src load' torque ode scratch' toY ofY) f toU st' t).2 := by
  obtain ⟨t0, k, s, c, p⟩ := st
  obtain ⟨t0', k', s', c', p'⟩ := st'
  obtain ⟨h1, h2, h3, h4⟩ := hst
  simp only at h1 h2 h3 h4
  subst h1 h2
  obtain ⟨hs1, hs2, hs3⟩ := id h3
  obtain ⟨i, hi, hi'⟩ := h.frames.cur s.y
  have hd := h.twin.draw c c' i h4
  obtain ⟨⟨w, hw, hw'⟩, hb⟩ := h.twin.conv c c' i s.t h4
  unfold piece
  simp only [eulerParts, hs1, hs3, hi, hi', ← hd]
  cases e : pw.iSup c (List.ofFn i) with
  | error e => exact ⟨⟨rfl, rfl, h3, h4⟩, rfl⟩
  | ok is =>
    obtain ⟨v, hv⟩ := h.one.1 p' t0' is
    have hp : products (List.ofFn w) [v] = List.ofFn fun k => w k * v := products_ofFn _ _
    have hp' : products (List.ofFn (τ w)) [v] = List.ofFn (τ fun k => w k * v) := by rw [products_ofFn, h.frames.hom]
    have hu := hU s.y fun k => w k * v
    simp only [hv, hw, hw', hp, hp']
    cases e1 : toU (toY s.y) (List.ofFn fun k => w k * v) with
    | error er =>
      cases e2 : toU (toY (lin s.y + shift)) (List.ofFn (τ fun k => w k * v)) with
      | error er' =>
        rw [e1, e2] at hu
        exact ⟨⟨rfl, rfl, h3, hb⟩, hu⟩
      | ok u' => rw [e1, e2] at hu; exact hu.elim
    | ok u =>
      cases e2 : toU (toY (lin s.y + shift)) (List.ofFn (τ fun k => w k * v)) with
      | error er' => rw [e1, e2] at hu; exact hu.elim
      | ok u' =>
        rw [e1, e2] at hu
        cases (show u' = onU u from hu)
        refine ⟨⟨rfl, rfl, ?_, hb⟩, _, _, rfl, rfl⟩
        simp only [drive_scratch (scratch := scratch), drive_scratch (scratch := scratch')]
        exact integrate_twin (fun t x => h.rhs u t x) h3 t

theorem pieces_twin (h : Mirrored src pw rest busy mate asked τ f rep limits toY ofY lin shift onU torque ode load load' obs)
    (ts : List ℝ) {st st' : St ℝ (Euler ℝ (Fin (1 + m) → ℝ)) C P} (hst : SystemTwin (fun x => lin x + shift) busy st st') :
    SystemTwin (fun x => lin x + shift) busy (pieces (eulerParts pw src load torque ode scratch toY ofY) f ts st).1
      (pieces (eulerParts pw src load' torque ode scratch' toY ofY) f ts st').1 ∧
    Echo (fun _ _ => True) (pieces (eulerParts pw src load torque ode scratch toY ofY) f ts st).2
      (pieces (eulerParts pw src load' torque ode scratch' toY ofY) f ts st').2 := by
  induction ts generalizing st st' with
  | nil => exact ⟨hst, trivial⟩
  | cons t ts ih =>
    obtain ⟨h1, h2⟩ := piece_twin (scratch := scratch) (scratch' := scratch') h (h.frames.loop) hst t
    simp only [pieces, Call.bind]
    cases e1 : (piece (eulerParts pw src load torque ode scratch toY ofY) f f.loopU st t).2 with
    | error er =>
      cases e2 : (piece (eulerParts pw src load' torque ode scratch' toY ofY) f f.loopU st' t).2 with
      | error er' => rw [e1, e2] at h2; exact ⟨h1, h2⟩
      | ok _ => rw [e1, e2] at h2; exact h2.elim
    | ok _ =>
      cases e2 : (piece (eulerParts pw src load' torque ode scratch' toY ofY) f f.loopU st' t).2 with
      | error er' => rw [e1, e2] at h2; exact h2.elim
      | ok _ => exact ih h1

theorem simulate_twin (h : Mirrored src pw rest busy mate asked τ f rep limits toY ofY lin shift onU torque ode load load' obs)
    (tau : ℝ) {st st' : St ℝ (Euler ℝ (Fin (1 + m) → ℝ)) C P} (hst : SystemTwin (fun x => lin x + shift) rest st st') {a a' : A}
    (ha : asked a a') :
    SystemTwin (fun x => lin x + shift) rest (simulate (eulerParts pw src load torque ode scratch toY ofY) f tau limits st a).1
      (simulate (eulerParts pw src load' torque ode scratch' toY ofY) f tau limits st' a').1 ∧
    Echo obs (simulate (eulerParts pw src load torque ode scratch toY ofY) f tau limits st a).2
      (simulate (eulerParts pw src load' torque ode scratch' toY ofY) f tau limits st' a').2 := by
  have free : ∀ {st st' : St ℝ (Euler ℝ (Fin (1 + m) → ℝ)) C P}, SystemTwin (fun x => lin x + shift) busy st st' →
      SystemTwin (fun x => lin x + shift) rest st st' := fun h' => ⟨h'.t, h'.supply, h'.solver, h.twin.free _ _ h'.conv⟩
  obtain ⟨hs1, hs2, hs3⟩ := hst.solver
  have hm := h.frames.act st.solver.y a a' ha
  obtain ⟨⟨ts, e1, e2⟩, hb⟩ := h.twin.set _ _ _ _ st.t hst.conv hm
  have key := pieces_twin (scratch := scratch) (scratch' := scratch') h ts.dropLast
    (st := { st with conv := (pw.setAction st.conv (f.action (toY st.solver.y) a) st.t).1 })
    (st' := { st' with conv := (pw.setAction st'.conv (f.action (toY (lin st.solver.y + shift)) a') st.t).1 })
    ⟨hst.t, hst.supply, hst.solver, hb⟩
  have s1 : (eulerParts pw src load torque ode scratch toY ofY).solverY st.solver = toY st.solver.y := rfl
  have s2 : (eulerParts pw src load' torque ode scratch' toY ofY).solverY st'.solver = toY (lin st.solver.y + shift) :=
    congrArg toY hs3
  have s3 : (eulerParts pw src load torque ode scratch toY ofY).setAction = pw.setAction := rfl
  have s4 : (eulerParts pw src load' torque ode scratch' toY ofY).setAction = pw.setAction := rfl
  unfold simulate
  simp only [s1, s2, s3, s4, hst.t, e1, e2, Call.bind]
  obtain ⟨k1, k2⟩ := key
  generalize pieces (eulerParts pw src load torque ode scratch toY ofY) f ts.dropLast
    { st with conv := (pw.setAction st.conv (f.action (toY st.solver.y) a) st.t).1 } = r at k1 k2 ⊢
  have es : (⟨st.t, st'.k, st'.solver, (pw.setAction st'.conv (f.action (toY (lin st.solver.y + shift)) a') st.t).1, st'.supply⟩ :
      St ℝ (Euler ℝ (Fin (1 + m) → ℝ)) C P) =
      { st' with conv := (pw.setAction st'.conv (f.action (toY (lin st.solver.y + shift)) a') st.t).1 } := by rw [← hst.t]
  rw [es]
  generalize pieces (eulerParts pw src load' torque ode scratch' toY ofY) f ts.dropLast
    { st' with conv := (pw.setAction st'.conv (f.action (toY (lin st.solver.y + shift)) a') st.t).1 } = r' at k1 k2 ⊢
  obtain ⟨q, o⟩ := r
  obtain ⟨q', o'⟩ := r'
  match o, o', k2 with
  | .error e, .error e', k2 => exact ⟨free k1, k2⟩
  | .ok _, .ok _, _ =>
    simp only
    have hy : (eulerParts pw src load' torque ode scratch' toY ofY).solverY q'.solver = toY (lin q.solver.y + shift) :=
      congrArg toY k1.solver.2.2
    have hy0 : (eulerParts pw src load torque ode scratch toY ofY).solverY q.solver = toY q.solver.y := rfl
    obtain ⟨g1, g2⟩ := piece_twin (scratch := scratch) (scratch' := scratch') h (h.frames.last) k1 (q.t + tau)
    rw [k1.t, hy, hy0]
    generalize piece (eulerParts pw src load torque ode scratch toY ofY) f f.lastU q (q.t + tau) = r at g1 g2 ⊢
    generalize piece (eulerParts pw src load' torque ode scratch' toY ofY) f f.lastU q' (q.t + tau) = r' at g1 g2 ⊢
    obtain ⟨z, o⟩ := r
    obtain ⟨z', o'⟩ := r'
    match o, o', g2 with
    | .error e, .error e', g2 => exact ⟨free g1, g2⟩
    | .ok a, .ok b, g2 =>
      obtain ⟨w, v, rfl, rfl⟩ := g2
      obtain ⟨n1, n2, n3⟩ := g1.solver
      refine ⟨⟨n1, g1.supply, g1.solver, h.twin.free _ _ g1.conv⟩, ?_⟩
      simp only [eulerParts]
      rw [show z'.solver.y = lin z.solver.y + shift from n3]
      exact h.frames.report q.solver.y z.solver.y w v

/-- Histories of both systems: all answers are related. -/
theorem answers_twin (h : Mirrored src pw rest busy mate asked τ f rep limits toY ofY lin shift onU torque ode load load' obs)
    (tau : ℝ) {ops ops' : List (Y ⊕ A)} (ho : List.Forall₂ (Paired toY (fun x => lin x + shift) asked) ops ops')
    {st st' : St ℝ (Euler ℝ (Fin (1 + m) → ℝ)) C P} (hst : SystemTwin (fun x => lin x + shift) rest st st') :
    List.Forall₂ (Echo obs) (answers (eulerParts pw src load torque ode scratch toY ofY) f rep tau limits st ops)
      (answers (eulerParts pw src load' torque ode scratch' toY ofY) f rep tau limits st' ops') := by
  induction ho generalizing st st' with
  | nil => exact .nil
  | cons ho _ ih =>
    cases ho with
    | reset x =>
      obtain ⟨hr, w, e1, e2⟩ := h.twin.reset _ _ hst.conv
      obtain ⟨v, hv⟩ := h.one.2 st.supply
      refine .cons ?_ (ih ?_)
      · simp only [reset, eulerParts, hst.supply, hv, e1, e2, products_ofFn]
        rw [← h.frames.hom]
        exact h.frames.start x (fun k => w k * v) v
      · refine ⟨rfl, ?_, ⟨rfl, hst.solver.2.1, ?_⟩, hr⟩
        · simp only [reset, eulerParts, hst.supply]
        · simp only [reset, eulerParts, Euler.setInitialValue, h.back]
    | step ha =>
      obtain ⟨h1, h2⟩ := simulate_twin (scratch := scratch) (scratch' := scratch') h tau hst ha
      exact .cons h2 (ih h1)

end systems

/-! ## The converters of the toolbox -/

section converters

/-- a half bridge in one of its three positions -/
def LegFine (l : TwoQC ℝ) : Prop := l.state < 3
/-- and with an action -/
def LegLive (l : TwoQC ℝ) : Prop := l.state < 3 ∧ l.pattern ≠ [] ∧ ∀ s ∈ l.pattern, s < 3

theorem leg_setAction (l : TwoQC ℝ) (h : LegFine l) {a : ℕ} (ha : a < 3) (t : ℝ) :
    (∃ ts, (l.setAction a t).2 = .ok ts) ∧ LegLive (l.setAction a t).1 := by
  unfold TwoQC.setAction
  rw [if_pos ha]
  split
  · exact ⟨⟨_, rfl⟩, h, by simp, by simpa using ha⟩
  · exact ⟨⟨_, rfl⟩, h, by simp, by simpa using ha⟩

theorem leg_convert_live (l : TwoQC ℝ) (h : LegLive l) (t : ℝ) :
    LegLive (l.convert [0] t).1 ∧ ∀ x rs, (l.convert (x :: rs) t).1 = (l.convert [0] t).1 ∧ ∃ u, (l.convert (x :: rs) t).2 = .ok [u] ∧
      (l.convert [x] t).2 = .ok [u] := by
  obtain ⟨h1, h2, h3⟩ := h
  have key : ∃ s, (if t - l.tau / 1000 > l.start + l.il then l.pattern.getLast? else l.pattern.head?) = some s ∧ s < 3 := by
    split
    · exact ⟨_, List.getLast?_eq_some_getLast h2, h3 _ (List.getLast_mem h2)⟩
    · exact ⟨_, List.head?_eq_some_head h2, h3 _ (List.head_mem h2)⟩
  obtain ⟨s, e, hs⟩ := key
  unfold TwoQC.convert
  simp only [e]
  refine ⟨⟨hs, h2, h3⟩, fun x rs => ⟨trivial, ?_⟩⟩
  match s, hs with
  | 0, _ => exact ⟨_, rfl, rfl⟩
  | 1, _ => exact ⟨_, rfl, rfl⟩
  | 2, _ => exact ⟨_, rfl, rfl⟩

theorem leg_iSup (l : TwoQC ℝ) (h : LegFine l) (x : ℝ) (rs : List ℝ) : ∃ u, l.iSup (x :: rs) = .ok u ∧ l.iSup [x] = .ok u := by
  unfold TwoQC.iSup
  have h : l.state < 3 := h
  match hs : l.state, h with
  | 0, _ => exact ⟨_, rfl, rfl⟩
  | 1, _ => exact ⟨_, rfl, rfl⟩
  | 2, _ => exact ⟨_, rfl, rfl⟩

/-- the half bridges of a B6 bridge -/
def legOf (b : B6 ℝ) : Fin 3 → TwoQC ℝ := ![b.s0, b.s1, b.s2]

/-- both are B6 bridges, of which the half bridges are interchanged -/
def LegsMoved (good : TwoQC ℝ → Prop) (e : Equiv.Perm (Fin 3)) (c c' : FConv ℝ) : Prop :=
  ∃ b b', c = .b6 b ∧ c' = .b6 b' ∧ ∀ k, legOf b' k = legOf b (e k) ∧ good (legOf b k)

/-- switching states of which the half bridges are interchanged -/
def SwitchesMoved (e : Equiv.Perm (Fin 3)) (a a' : ℕ) : Prop := a < 8 ∧ a' < 8 ∧ ∀ k : Fin 3, a'.testBit (2 - k) = a.testBit (2 - e k)

theorem union_moved (e : Equiv.Perm (Fin 3)) (f g : Fin 3 → List ℝ) (h : ∀ k, g k = f (e k)) :
    sortedSet (f 0 ++ f 1 ++ f 2) = sortedSet (g 0 ++ g 1 ++ g 2) := by
  have key : ∀ f : Fin 3 → List ℝ, ∀ x, x ∈ f 0 ++ f 1 ++ f 2 ↔ ∃ k, x ∈ f k := fun f x => by
    simp [Fin.exists_fin_succ]
  unfold sortedSet
  congr 1
  ext x
  rw [List.mem_toFinset, List.mem_toFinset, key, key]
  constructor
  · rintro ⟨k, hk⟩
    exact ⟨e.symm k, by rw [h]; simpa using hk⟩
  · rintro ⟨k, hk⟩
    exact ⟨e k, by rw [← h]; exact hk⟩

theorem b6_setAction (b : B6 ℝ) (hb : ∀ k, LegFine (legOf b k)) {a : ℕ} (ha : a < 8) (t : ℝ) : ∃ ts : Fin 3 → List ℝ,
    (∀ k, ((legOf b k).setAction (b6Legs a k) t).2 = .ok (ts k)) ∧
    (b.setAction a t).2 = .ok (sortedSet (ts 0 ++ ts 1 ++ ts 2)) ∧
    ∀ k, legOf (b.setAction a t).1 k = ((legOf b k).setAction (b6Legs a k) t).1 := by
  obtain ⟨t0, h0⟩ := (leg_setAction _ (hb 0) (b6Legs_lt a 0) t).1
  obtain ⟨t1, h1⟩ := (leg_setAction _ (hb 1) (b6Legs_lt a 1) t).1
  obtain ⟨t2, h2⟩ := (leg_setAction _ (hb 2) (b6Legs_lt a 2) t).1
  refine ⟨![t0, t1, t2], fun k => ?_, ?_, fun k => ?_⟩
  · fin_cases k
    · exact h0
    · exact h1
    · exact h2
  all_goals
    simp only [legOf, Matrix.cons_val_zero, Matrix.cons_val_one, Matrix.cons_val_two, Matrix.head_cons, Matrix.tail_cons] at h0 h1 h2
    simp only [B6.setAction, if_pos ha, b6Legs_eq ha, h0, h1, h2]
  · rfl
  · fin_cases k <;> rfl

theorem b6_convert (b : B6 ℝ) (hb : ∀ k, LegLive (legOf b k)) (i : Fin 3 → ℝ) (t : ℝ) : ∃ u : Fin 3 → ℝ,
    (∀ k, ((legOf b k).convert [i k] t).2 = .ok [u k]) ∧
    (b.convert (List.ofFn i) t).2 = .ok (List.ofFn fun k => u k - 1 / 2) ∧
    ∀ k, legOf (b.convert (List.ofFn i) t).1 k = ((legOf b k).convert [i k] t).1 := by
  obtain ⟨u0, h0, -⟩ := ((leg_convert_live _ (hb 0) t).2 (i 0) []).2
  obtain ⟨u1, h1, -⟩ := ((leg_convert_live _ (hb 1) t).2 (i 1) []).2
  obtain ⟨u2, h2, -⟩ := ((leg_convert_live _ (hb 2) t).2 (i 2) []).2
  refine ⟨![u0, u1, u2], fun k => ?_, ?_, fun k => ?_⟩
  · fin_cases k
    · exact h0
    · exact h1
    · exact h2
  all_goals
    have e : List.ofFn i = [i 0, i 1, i 2] := by simp [List.ofFn_succ]
    simp only [legOf, Matrix.cons_val_zero, Matrix.cons_val_one, Matrix.cons_val_two, Matrix.head_cons, Matrix.tail_cons] at h0 h1 h2
    simp only [e, B6.convert, h0, h1, h2]
  · simp [List.ofFn_succ]
  · fin_cases k <;> rfl

theorem b6_iSup (b : B6 ℝ) (hb : ∀ k, LegFine (legOf b k)) (i : Fin 3 → ℝ) : ∃ u : Fin 3 → ℝ,
    (∀ k, (legOf b k).iSup [i k] = .ok (u k)) ∧ b.iSup (List.ofFn i) = .ok (∑ k, u k) := by
  obtain ⟨u0, h0, -⟩ := leg_iSup _ (hb 0) (i 0) []
  obtain ⟨u1, h1, -⟩ := leg_iSup _ (hb 1) (i 1) []
  obtain ⟨u2, h2, -⟩ := leg_iSup _ (hb 2) (i 2) []
  refine ⟨![u0, u1, u2], fun k => ?_, ?_⟩
  · fin_cases k
    · exact h0
    · exact h1
    · exact h2
  · have e : List.ofFn i = [i 0, i 1, i 2] := by simp [List.ofFn_succ]
    simp only [legOf, Matrix.cons_val_zero, Matrix.cons_val_one, Matrix.cons_val_two, Matrix.head_cons, Matrix.tail_cons] at h0 h1 h2
    simp only [e, B6.iSup, sumZip, h0, h1, h2, Fin.sum_univ_three, Matrix.cons_val_zero, Matrix.cons_val_one, Matrix.cons_val,
      add_zero, add_assoc]

theorem live_fine {l : TwoQC ℝ} (h : LegLive l) : LegFine l := h.1

/-- B6 bridges, switched -/
theorem b6_twin (e : Equiv.Perm (Fin 3)) :
    Twin finitePower (LegsMoved LegFine e) (LegsMoved LegLive e) (SwitchesMoved e) (fun w : Fin 3 → ℝ => w ∘ e) := by
  refine ⟨?_, ?_, ?_, ?_, ?_⟩
  · rintro c c' a a' t ⟨b, b', rfl, rfl, h⟩ ⟨ha, ha', hm⟩
    have hl : ∀ k, b6Legs a' k = b6Legs a (e k) := fun k => by simp only [b6Legs, hm]
    obtain ⟨ts, h1, h2, h3⟩ := b6_setAction b (fun k => (h k).2) ha t
    obtain ⟨ts', h1', h2', h3'⟩ := b6_setAction b' (fun k => by rw [(h k).1]; exact (h _).2) ha' t
    have ht : ∀ k, ts' k = ts (e k) := fun k => by
      have := h1' k
      rw [(h k).1, hl, h1] at this
      injection this with this
      exact this.symm
    refine ⟨⟨sortedSet (ts 0 ++ ts 1 ++ ts 2), h2, ?_⟩, (b.setAction a t).1, (b'.setAction a' t).1, rfl, rfl, fun k => ⟨?_, ?_⟩⟩
    · rw [union_moved e ts ts' ht]
      exact h2'
    · rw [h3', h3, (h k).1, hl]
    · rw [h3]
      exact (leg_setAction _ (h k).2 (b6Legs_lt a k) t).2
  · rintro c c' i ⟨b, b', rfl, rfl, h⟩
    obtain ⟨u, h1, h2⟩ := b6_iSup b (fun k => (h k).2.1) i
    obtain ⟨u', h1', h2'⟩ := b6_iSup b' (fun k => by rw [(h k).1]; exact (h _).2.1) (i ∘ e)
    have hu : ∀ k, u' k = u (e k) := fun k => by
      have := h1' k
      rw [(h k).1, Function.comp_apply, h1] at this
      injection this with this
      exact this.symm
    simp only [finitePower, FConv.iSup, h2, h2']
    rw [Fintype.sum_congr _ _ hu, Equiv.sum_comp e u]
  · rintro c c' i t ⟨b, b', rfl, rfl, h⟩
    obtain ⟨u, h1, h2, h3⟩ := b6_convert b (fun k => (h k).2) i t
    obtain ⟨u', h1', h2', h3'⟩ := b6_convert b' (fun k => by rw [(h k).1]; exact (h _).2) (i ∘ e) t
    have hu : ∀ k, u' k = u (e k) := fun k => by
      have := h1' k
      rw [(h k).1, Function.comp_apply, h1] at this
      injection this with this
      injection this with this
      exact this.symm
    refine ⟨⟨fun k => u k - 1 / 2, h2, ?_⟩, (b.convert (List.ofFn i) t).1, (b'.convert (List.ofFn (i ∘ e)) t).1, rfl, rfl,
      fun k => ⟨?_, ?_⟩⟩
    · simp only [hu] at h2'
      exact h2'
    · rw [h3', h3, (h k).1]
      rfl
    · rw [h3, ((leg_convert_live _ (h k).2 t).2 _ _).1]
      exact (leg_convert_live _ (h k).2 t).1
  · rintro c c' ⟨b, b', rfl, rfl, h⟩
    exact ⟨b, b', rfl, rfl, fun k => ⟨(h k).1, (h k).2.1⟩⟩
  · rintro c c' ⟨b, b', rfl, rfl, h⟩
    refine ⟨⟨b.reset.1, b'.reset.1, rfl, rfl, fun k => ?_⟩, fun _ => -(1 / 2), ?_, ?_⟩
    · have key : ∀ b : B6 ℝ, ∀ k, legOf b.reset.1 k = (legOf b k).reset.1 := fun b k => by fin_cases k <;> rfl
      refine ⟨?_, ?_⟩
      · rw [key, key, (h k).1]
      · rw [key]
        exact (h k).2
    · simp [finitePower, FConv.reset, B6.reset, List.ofFn_succ]
    · simp [finitePower, FConv.reset, B6.reset, List.ofFn_succ, Function.comp_def]

/-- the half bridges of an averaged B6 bridge -/
def cLegOf (b : CB6 ℝ) : Fin 3 → CTwo ℝ := ![b.s0, b.s1, b.s2]

/-- both are averaged B6 bridges, of which the half bridges are interchanged -/
def CLegsMoved (e : Equiv.Perm (Fin 3)) (c c' : CConv ℝ) : Prop :=
  ∃ b b', c = .b6 b ∧ c' = .b6 b' ∧ ∀ k, cLegOf b' k = cLegOf b (e k)

/-- actions of which the entries are interchanged -/
def DutiesMoved (e : Equiv.Perm (Fin 3)) (a a' : List ℝ) : Prop := ∃ v : Fin 3 → ℝ, a = List.ofFn v ∧ a' = List.ofFn (v ∘ e)

theorem three_list (v : Fin 3 → ℝ) : List.ofFn v = [v 0, v 1, v 2] := by simp [List.ofFn_succ]

theorem cb6_setAction (b : CB6 ℝ) (v : Fin 3 → ℝ) (t : ℝ) :
    (b.setAction (List.ofFn v) t).2 = .ok (sortedSet ([t + (cLegOf b 0).tau] ++ [t + (cLegOf b 1).tau] ++ [t + (cLegOf b 2).tau])) ∧
    ∀ k, cLegOf (b.setAction (List.ofFn v) t).1 k = ((cLegOf b k).setAction [1 / 2 * (v k + 1)] t).1 := by
  rw [three_list]
  exact ⟨rfl, fun k => by fin_cases k <;> rfl⟩

theorem cb6_convert (b : CB6 ℝ) (i : Fin 3 → ℝ) (t : ℝ) : b.convert (List.ofFn i) t =
    .ok (List.ofFn fun k => clip ((cLegOf b k).action - (cLegOf b k).interlock (i k)) 0 1 - 1 / 2) := by
  rw [three_list, three_list]
  rfl

theorem cb6_iSup (b : CB6 ℝ) (i : Fin 3 → ℝ) : b.iSup (List.ofFn i) = .ok (∑ k, ((cLegOf b k).action +
    (cLegOf b k).il / (cLegOf b k).tau * ((if i k < 0 then 1 else 0) - (cLegOf b k).action)) * i k) := by
  rw [three_list, Fin.sum_univ_three]
  simp only [CB6.iSup, sumZip, CTwo.iSup, add_zero, add_assoc]
  rfl

/-- B6 bridges, averaged -/
theorem cb6_twin (e : Equiv.Perm (Fin 3)) :
    Twin contPower (CLegsMoved e) (CLegsMoved e) (DutiesMoved e) (fun w : Fin 3 → ℝ => w ∘ e) := by
  refine ⟨?_, ?_, ?_, fun _ _ h => h, ?_⟩
  · rintro c c' a a' t ⟨b, b', rfl, rfl, h⟩ ⟨v, rfl, rfl⟩
    obtain ⟨h1, h2⟩ := cb6_setAction b v t
    obtain ⟨h1', h2'⟩ := cb6_setAction b' (v ∘ e) t
    refine ⟨⟨sortedSet ([t + (cLegOf b 0).tau] ++ [t + (cLegOf b 1).tau] ++ [t + (cLegOf b 2).tau]), h1, ?_⟩,
      (b.setAction (List.ofFn v) t).1, (b'.setAction (List.ofFn (v ∘ e)) t).1, rfl, rfl, fun k => ?_⟩
    · rw [union_moved e (fun k => [t + (cLegOf b k).tau]) (fun k => [t + (cLegOf b' k).tau]) fun k => by rw [h]]
      exact h1'
    · rw [h2', h2, h]
      rfl
  · rintro c c' i ⟨b, b', rfl, rfl, h⟩
    simp only [contPower, CConv.iSup, cb6_iSup, h, Function.comp_apply]
    rw [Equiv.sum_comp e fun k => ((cLegOf b k).action +
      (cLegOf b k).il / (cLegOf b k).tau * ((if i k < 0 then 1 else 0) - (cLegOf b k).action)) * i k]
  · rintro c c' i t ⟨b, b', rfl, rfl, h⟩
    refine ⟨⟨_, by simp only [contPower, CConv.convert, cb6_convert]; rfl, ?_⟩, _, _, rfl, rfl, h⟩
    simp only [contPower, CConv.convert, cb6_convert, h]
    rfl
  · rintro c c' ⟨b, b', rfl, rfl, h⟩
    refine ⟨⟨_, _, rfl, rfl, fun k => ?_⟩, fun _ => -(1 / 2), ?_, ?_⟩
    · have key : ∀ b : CB6 ℝ, ∀ k, cLegOf ⟨b.tau, ⟨b.s0.tau, b.s0.il, 0⟩, ⟨b.s1.tau, b.s1.il, 0⟩, ⟨b.s2.tau, b.s2.il, 0⟩⟩ k =
          ⟨(cLegOf b k).tau, (cLegOf b k).il, 0⟩ := fun b k => by fin_cases k <;> rfl
      have h' := key b' k
      rw [h, ← key b (e k)] at h'
      exact h'
    · simp [contPower, CConv.reset, List.ofFn_succ]
    · simp [contPower, CConv.reset, List.ofFn_succ, Function.comp_def]

/-- both are four quadrant converters, with interchanged half bridges -/
def SidesSwapped (good : TwoQC ℝ → Prop) (c c' : FConv ℝ) : Prop :=
  ∃ b b', c = .four b ∧ c' = .four b' ∧ b'.sub0 = b.sub1 ∧ b'.sub1 = b.sub0 ∧ good b.sub0 ∧ good b.sub1

/-- opposite switching states: 1 and 2 apply the supply voltage in opposite directions, 0 and 3 none -/
def SwitchesOpposite (a a' : ℕ) : Prop := (a = 0 ∧ a' = 0) ∨ (a = 1 ∧ a' = 2) ∨ (a = 2 ∧ a' = 1) ∨ (a = 3 ∧ a' = 3)

theorem sortedSet_comm (a b : List ℝ) : sortedSet (a ++ b) = sortedSet (b ++ a) := by
  unfold sortedSet
  congr 1
  ext x
  simp [or_comm]

/-- four quadrant converters, switched -/
theorem four_twin : Twin finitePower (SidesSwapped LegFine) (SidesSwapped LegLive) SwitchesOpposite (fun w : Fin 1 → ℝ => -w) := by
  refine ⟨?_, ?_, ?_, ?_, ?_⟩
  · rintro c c' a a' t ⟨b, b', rfl, rfl, e0, e1, g0, g1⟩ hm
    have ha : a < 4 ∧ a' < 4 ∧ fourAction0 a' = fourAction1 a ∧ fourAction1 a' = fourAction0 a ∧ fourAction0 a < 3 ∧ fourAction1 a < 3 := by
      rcases hm with ⟨rfl, rfl⟩ | ⟨rfl, rfl⟩ | ⟨rfl, rfl⟩ | ⟨rfl, rfl⟩ <;> simp [fourAction0, fourAction1]
    obtain ⟨h, h', m0, m1, l0, l1⟩ := ha
    obtain ⟨⟨t0, h0⟩, v0⟩ := leg_setAction _ g0 l0 t
    obtain ⟨⟨t1, h1⟩, v1⟩ := leg_setAction _ g1 l1 t
    simp only [finitePower, FConv.setAction, FourQC.setAction, Prod.map, id, if_pos h, if_pos h', h0, h1, e0, e1, m0, m1]
    exact ⟨⟨sortedSet (t0 ++ t1), rfl, by rw [sortedSet_comm]⟩, _, _, rfl, rfl, rfl, rfl, v0, v1⟩
  · rintro c c' i ⟨b, b', rfl, rfl, e0, e1, g0, g1⟩
    obtain ⟨u0, h0, -⟩ := leg_iSup _ g0.1 (i 0) []
    obtain ⟨u1, h1, -⟩ := leg_iSup _ g1.1 (-i 0) []
    simp [finitePower, FConv.iSup, FourQC.iSup, e0, e1, h0, h1, add_comm]
  · rintro c c' i t ⟨b, b', rfl, rfl, e0, e1, g0, g1⟩
    obtain ⟨p0, q0⟩ := leg_convert_live _ g0 t
    obtain ⟨p1, q1⟩ := leg_convert_live _ g1 t
    obtain ⟨s0, u0, h0, -⟩ := q0 (i 0) []
    obtain ⟨s1, u1, h1, -⟩ := q1 (-i 0) []
    have l1 : List.ofFn i = [i 0] := by simp
    have l2 : List.ofFn (-i) = [-i 0] := by simp
    simp only [finitePower, FConv.convert, FourQC.convert, Prod.map, id, l1, l2, e0, e1, h0, h1, neg_neg]
    refine ⟨⟨fun _ => u0 - u1, by simp, by simp⟩, _, _, rfl, rfl, rfl, rfl, ?_, ?_⟩
    · simpa only [s0] using p0
    · simpa only [s1] using p1
  · rintro c c' ⟨b, b', rfl, rfl, e0, e1, g0, g1⟩
    exact ⟨b, b', rfl, rfl, e0, e1, g0.1, g1.1⟩
  · rintro c c' ⟨b, b', rfl, rfl, e0, e1, g0, g1⟩
    refine ⟨⟨_, _, rfl, rfl, ?_, ?_, g0, g1⟩, 0, ?_, ?_⟩
    · simp only [e0]
    · simp only [e1]
    · simp [finitePower, FConv.reset, FourQC.reset]
    · simp [finitePower, FConv.reset, FourQC.reset]

/-- both are averaged four quadrant converters, with the same sampling and interlocking times everywhere -/
def CSides (c c' : CConv ℝ) : Prop :=
  ∃ T I p p' d0 d1 d0' d1', c = .four ⟨p, ⟨T, I, d0⟩, ⟨T, I, d1⟩⟩ ∧ c' = .four ⟨p', ⟨T, I, d0'⟩, ⟨T, I, d1'⟩⟩

/-- and with opposite duty cycles -/
def CSidesSwapped (c c' : CConv ℝ) : Prop :=
  ∃ T I p p' d, c = .four ⟨p, ⟨T, I, d⟩, ⟨T, I, 1 - d⟩⟩ ∧ c' = .four ⟨p', ⟨T, I, 1 - d⟩, ⟨T, I, d⟩⟩

theorem clip_one_sub (x : ℝ) : clip (1 - x) 0 1 = 1 - clip x 0 1 := by
  unfold clip
  rcases le_total x 0 with h | h
  · rw [max_eq_right h, min_eq_left (zero_le_one), max_eq_left (by linarith), min_eq_right (by linarith)]
    ring
  · rw [max_eq_left h]
    rcases le_total x 1 with h1 | h1
    · rw [min_eq_left h1, max_eq_left (by linarith), min_eq_left (by linarith)]
    · rw [min_eq_right h1, max_eq_right (by linarith), min_eq_left (zero_le_one)]
      ring

/-- four quadrant converters, averaged -/
theorem cfour_twin :
    Twin contPower CSides CSidesSwapped (fun a a' => ∃ x, a = [x] ∧ a' = [-x]) (fun w : Fin 1 → ℝ => -w) := by
  refine ⟨?_, ?_, ?_, ?_, ?_⟩
  · rintro c c' a a' t ⟨T, I, p, p', d0, d1, d0', d1', rfl, rfl⟩ ⟨x, rfl, rfl⟩
    refine ⟨⟨_, rfl, rfl⟩, T, I, p, p', clip (1 / 2 * (x + 1)) 0 1, ?_, ?_⟩
    · have e : 1 - clip (1 / 2 * (x + 1)) 0 1 = clip (-(1 / 2) * (x - 1)) 0 1 := by
        rw [← clip_one_sub]; congr 1; ring
      rw [e]
      rfl
    · have e : 1 - clip (1 / 2 * (x + 1)) 0 1 = clip (1 / 2 * (-x + 1)) 0 1 := by
        rw [← clip_one_sub]; congr 1; ring
      have e' : clip (1 / 2 * (x + 1)) 0 1 = clip (-(1 / 2) * (-x - 1)) 0 1 := by congr 1; ring
      rw [e, e']
      rfl
  · rintro c c' i ⟨T, I, p, p', d, rfl, rfl⟩
    simp [contPower, CConv.iSup, CFour.iSup, CTwo.iSup, add_comm]
  · rintro c c' i t ⟨T, I, p, p', d, rfl, rfl⟩
    refine ⟨⟨fun _ => clip (d - (SignType.sign (i 0) : ℝ) / T * I) 0 1 - clip (1 - d - (SignType.sign (i 0) : ℝ) / T * I) 0 1, ?_, ?_⟩,
      T, I, p, p', d, rfl, rfl⟩
    · simp [contPower, CConv.convert, CFour.convert, CTwo.convert, CTwo.interlock]
    · have e1 : clip (1 - d - ((SignType.sign (-i 0) : SignType) : ℝ) / T * I) 0 1 = 1 - clip (d - (SignType.sign (i 0) : ℝ) / T * I) 0 1 := by
        rw [← clip_one_sub, Left.sign_neg]
        congr 1
        push_cast
        ring
      have e2 : clip (d - ((SignType.sign (-i 0) : SignType) : ℝ) / T * I) 0 1 = 1 - clip (1 - d - (SignType.sign (i 0) : ℝ) / T * I) 0 1 := by
        rw [← clip_one_sub, Left.sign_neg]
        congr 1
        push_cast
        ring
      have l2 : List.ofFn (-i) = [-i 0] := by simp
      simp only [contPower, CConv.convert, CFour.convert, CTwo.convert, CTwo.interlock, l2, e1, e2]
      simp
  · rintro c c' ⟨T, I, p, p', d, rfl, rfl⟩
    exact ⟨T, I, p, p', _, _, _, _, rfl, rfl⟩
  · rintro c c' ⟨T, I, p, p', d0, d1, d0', d1', rfl, rfl⟩
    exact ⟨⟨T, I, p, p', 0, 0, 0, 0, rfl, rfl⟩, 0, by simp [contPower, CConv.reset], by simp [contPower, CConv.reset]⟩

/-- the half bridges of a converter for one current -/
def AllLegs (good : TwoQC ℝ → Prop) : FConv ℝ → Prop
  | .one _ => True
  | .two l => good l
  | .four b => good b.sub0 ∧ good b.sub1
  | .b6 _ => False

/-- the same converter twice -/
theorem keep_twin (N : ℕ) : Twin finitePower (fun c c' => c = c' ∧ c.nActions = N ∧ AllLegs LegFine c)
    (fun c c' => c = c' ∧ c.nActions = N ∧ AllLegs LegLive c) (fun a a' => a = a' ∧ a < N) (fun w : Fin 1 → ℝ => w) := by
  refine ⟨?_, ?_, ?_, ?_, ?_⟩
  · rintro c _ a _ t ⟨rfl, hN, hg⟩ ⟨rfl, ha⟩
    subst hN
    cases c with
    | one c =>
      have ha : a < 2 := ha
      simp only [finitePower, FConv.setAction, OneQC.setAction, if_pos ha]
      exact ⟨⟨_, rfl, rfl⟩, trivial, rfl, trivial⟩
    | two l =>
      obtain ⟨⟨ts, h⟩, hl⟩ := leg_setAction l hg ha t
      exact ⟨⟨ts, h, h⟩, rfl, rfl, hl⟩
    | four b =>
      have ha : a < 4 := ha
      have l0 : fourAction0 a < 3 := by unfold fourAction0; split <;> norm_num
      have l1 : fourAction1 a < 3 := by unfold fourAction1; split <;> norm_num
      obtain ⟨⟨t0, h0⟩, v0⟩ := leg_setAction _ hg.1 l0 t
      obtain ⟨⟨t1, h1⟩, v1⟩ := leg_setAction _ hg.2 l1 t
      simp only [finitePower, FConv.setAction, FourQC.setAction, Prod.map, id, if_pos ha, h0, h1]
      exact ⟨⟨_, rfl, rfl⟩, trivial, rfl, v0, v1⟩
    | b6 b => exact hg.elim
  · rintro c _ i ⟨rfl, -, -⟩
    rfl
  · rintro c _ i t ⟨rfl, hN, hg⟩
    have l1 : List.ofFn i = [i 0] := by simp
    cases c with
    | one c =>
      refine ⟨⟨fun _ => if 0 ≤ i 0 then (c.action : ℝ) else 1, ?_, ?_⟩, ?_, hN, ?_⟩ <;>
      simp [finitePower, FConv.convert, OneQC.convert, AllLegs]
    | two l =>
      obtain ⟨p, q⟩ := leg_convert_live l hg t
      obtain ⟨s, u, h, -⟩ := q (i 0) []
      rw [l1]
      refine ⟨⟨fun _ => u, ?_, ?_⟩, rfl, hN, ?_⟩
      · simpa [finitePower, FConv.convert] using h
      · simpa [finitePower, FConv.convert] using h
      · simp only [finitePower, FConv.convert, Prod.map, AllLegs, s]
        exact p
    | four b =>
      obtain ⟨p0, q0⟩ := leg_convert_live _ hg.1 t
      obtain ⟨p1, q1⟩ := leg_convert_live _ hg.2 t
      obtain ⟨s0, u0, h0, -⟩ := q0 (i 0) []
      obtain ⟨s1, u1, h1, -⟩ := q1 (-i 0) []
      simp only [finitePower, FConv.convert, FourQC.convert, Prod.map, id, l1, h0, h1]
      refine ⟨⟨fun _ => u0 - u1, by simp, by simp⟩, trivial, hN, ?_⟩
      simp only [AllLegs, s0, s1]
      exact ⟨p0, p1⟩
    | b6 b => exact hg.elim
  · rintro c _ ⟨rfl, hN, hg⟩
    refine ⟨rfl, hN, ?_⟩
    cases c with
    | one c => trivial
    | two l => exact hg.1
    | four b => exact ⟨hg.1.1, hg.2.1⟩
    | b6 b => exact hg.elim
  · rintro c _ ⟨rfl, hN, hg⟩
    cases c with
    | one c => exact ⟨⟨rfl, hN, hg⟩, 0, by simp [finitePower, FConv.reset, OneQC.reset], by simp [finitePower, FConv.reset, OneQC.reset]⟩
    | two l => exact ⟨⟨rfl, hN, hg⟩, 0, by simp [finitePower, FConv.reset, TwoQC.reset], by simp [finitePower, FConv.reset, TwoQC.reset]⟩
    | four b => exact ⟨⟨rfl, hN, hg⟩, 0, by simp [finitePower, FConv.reset, FourQC.reset], by simp [finitePower, FConv.reset, FourQC.reset]⟩
    | b6 b => exact hg.elim

/-- the same averaged converter twice -/
theorem ckeep_twin : Twin contPower (fun c c' => c = c' ∧ c.dim = 1) (fun c c' => c = c' ∧ c.dim = 1)
    (fun a a' => a = a' ∧ a.length = 1) (fun w : Fin 1 → ℝ => w) := by
  refine ⟨?_, ?_, ?_, fun _ _ h => h, ?_⟩
  · rintro c _ a _ t ⟨rfl, hN⟩ ⟨rfl, ha⟩
    obtain ⟨x, rfl⟩ := List.length_eq_one_iff.1 ha
    cases c with
    | b6 b => exact absurd hN (by simp [CConv.dim])
    | _ => exact ⟨⟨_, rfl, rfl⟩, rfl, rfl⟩
  · rintro c _ i ⟨rfl, -⟩
    rfl
  · rintro c _ i t ⟨rfl, hN⟩
    refine ⟨?_, rfl, hN⟩
    have l1 : List.ofFn i = [i 0] := by simp
    have l2 : ∀ u : ℝ, [u] = List.ofFn (fun _ : Fin 1 => u) := fun u => by simp
    rw [l1]
    cases c with
    | b6 b => exact absurd hN (by simp [CConv.dim])
    | one c => exact ⟨fun _ => _, by rw [← l2]; rfl, by rw [← l2]; rfl⟩
    | two c => exact ⟨fun _ => _, by rw [← l2]; rfl, by rw [← l2]; rfl⟩
    | four c => exact ⟨fun _ => _, by rw [← l2]; rfl, by rw [← l2]; rfl⟩
  · rintro c _ ⟨rfl, hN⟩
    cases c with
    | b6 b => exact absurd hN (by simp [CConv.dim])
    | _ => exact ⟨⟨rfl, rfl⟩, 0, by simp [contPower, CConv.reset], by simp [contPower, CConv.reset]⟩

/-- both components are related -/
def Both {C : Type} (R0 R1 : C → C → Prop) (cs cs' : List C) : Prop :=
  ∃ c0 c1 c0' c1', cs = [c0, c1] ∧ cs' = [c0', c1'] ∧ R0 c0 c0' ∧ R1 c1 c1'

/-- the actions of both components are related -/
def BothActions (n0 n1 : ℕ) (R0 R1 : List ℝ → List ℝ → Prop) (a a' : List ℝ) : Prop :=
  ∃ x y x' y', a = x ++ y ∧ a' = x' ++ y' ∧ x.length = n0 ∧ x'.length = n0 ∧ y.length = n1 ∧ y'.length = n1 ∧ R0 x x' ∧ R1 y y'

/-- what is done to the quantities of both components -/
def onBoth {n0 n1 : ℕ} (τ0 : (Fin n0 → ℝ) → Fin n0 → ℝ) (τ1 : (Fin n1 → ℝ) → Fin n1 → ℝ) (w : Fin (n0 + n1) → ℝ) : Fin (n0 + n1) → ℝ :=
  Fin.append (τ0 fun k => w (Fin.castAdd n1 k)) (τ1 fun k => w (Fin.natAdd n0 k))

theorem onBoth_append {n0 n1 : ℕ} (τ0 : (Fin n0 → ℝ) → Fin n0 → ℝ) (τ1 : (Fin n1 → ℝ) → Fin n1 → ℝ) (w : Fin n0 → ℝ) (v : Fin n1 → ℝ) :
    onBoth τ0 τ1 (Fin.append w v) = Fin.append (τ0 w) (τ1 v) := by
  simp [onBoth]

theorem append_parts {n0 n1 : ℕ} (w : Fin (n0 + n1) → ℝ) : w = Fin.append (fun k => w (Fin.castAdd n1 k)) fun k => w (Fin.natAdd n0 k) :=
  (Fin.append_castAdd_natAdd).symm

theorem take_parts {n0 n1 : ℕ} (w : Fin n0 → ℝ) (v : Fin n1 → ℝ) :
    (List.ofFn (Fin.append w v)).take n0 = List.ofFn w ∧ (List.ofFn (Fin.append w v)).drop n0 = List.ofFn v := by
  rw [List.ofFn_fin_append]
  exact ⟨List.take_left' (by simp), List.drop_left' (by simp)⟩

/-- two finite converters in a multi converter -/
theorem multi_twin {n0 n1 : ℕ} {rest0 busy0 rest1 busy1 : FConv ℝ → FConv ℝ → Prop} {mate0 mate1 : ℕ → ℕ → Prop}
    {τ0 : (Fin n0 → ℝ) → Fin n0 → ℝ} {τ1 : (Fin n1 → ℝ) → Fin n1 → ℝ} (h0 : Twin finitePower rest0 busy0 mate0 τ0)
    (h1 : Twin finitePower rest1 busy1 mate1 τ1) (d0 : ∀ c c', rest0 c c' → c.dim = n0 ∧ c'.dim = n0)
    (d1 : ∀ c c', rest1 c c' → c.dim = n1 ∧ c'.dim = n1) :
    Twin finiteMulti (Both rest0 rest1) (Both busy0 busy1) (Both mate0 mate1) (onBoth τ0 τ1) := by
  refine ⟨?_, ?_, ?_, ?_, ?_⟩
  · rintro _ _ _ _ t ⟨c0, c1, c0', c1', rfl, rfl, r0, r1⟩ ⟨a0, a1, a0', a1', rfl, rfl, m0, m1⟩
    obtain ⟨⟨t0, e0, e0'⟩, b0⟩ := h0.set _ _ _ _ t r0 m0
    obtain ⟨⟨t1, e1, e1'⟩, b1⟩ := h1.set _ _ _ _ t r1 m1
    simp only [finitePower] at e0 e0' e1 e1' b0 b1
    simp only [finiteMulti, multiSetAction, multiSetActionAux, e0, e0', e1, e1']
    exact ⟨⟨_, rfl, rfl⟩, _, _, _, _, rfl, rfl, b0, b1⟩
  · rintro _ _ i ⟨c0, c1, c0', c1', rfl, rfl, r0, r1⟩
    rw [append_parts i, onBoth_append]
    generalize (fun k => i (Fin.castAdd n1 k)) = w
    generalize (fun k => i (Fin.natAdd n0 k)) = v
    obtain ⟨p0, p0'⟩ := d0 _ _ (h0.free _ _ r0)
    obtain ⟨p1, p1'⟩ := d1 _ _ (h1.free _ _ r1)
    have e0 := h0.draw _ _ w r0
    have e1 := h1.draw _ _ v r1
    simp only [finitePower] at e0 e1
    simp only [finiteMulti, multiISup, p0, p0', p1, p1', take_parts]
    rw [List.take_of_length_le (by simp), List.take_of_length_le (by simp), e0, e1]
  · rintro _ _ i t ⟨c0, c1, c0', c1', rfl, rfl, r0, r1⟩
    rw [append_parts i, onBoth_append]
    generalize (fun k => i (Fin.castAdd n1 k)) = w
    generalize (fun k => i (Fin.natAdd n0 k)) = v
    obtain ⟨p0, p0'⟩ := d0 _ _ (h0.free _ _ r0)
    obtain ⟨p1, p1'⟩ := d1 _ _ (h1.free _ _ r1)
    obtain ⟨⟨u0, e0, e0'⟩, b0⟩ := h0.conv _ _ w t r0
    obtain ⟨⟨u1, e1, e1'⟩, b1⟩ := h1.conv _ _ v t r1
    simp only [finitePower] at e0 e0' e1 e1' b0 b1
    have k : ∀ v : Fin n1 → ℝ, List.take n1 (List.ofFn v) = List.ofFn v := fun v => List.take_of_length_le (by simp)
    simp only [finiteMulti, multiConvert, p0, p0', p1, p1', take_parts, k, e0, e0', e1, e1']
    refine ⟨⟨Fin.append u0 u1, ?_, ?_⟩, _, _, _, _, rfl, rfl, b0, b1⟩
    · simp [List.ofFn_fin_append]
    · simp [onBoth_append, List.ofFn_fin_append]
  · rintro _ _ ⟨c0, c1, c0', c1', rfl, rfl, r0, r1⟩
    exact ⟨_, _, _, _, rfl, rfl, h0.free _ _ r0, h1.free _ _ r1⟩
  · rintro _ _ ⟨c0, c1, c0', c1', rfl, rfl, r0, r1⟩
    obtain ⟨q0, w, e0, e0'⟩ := h0.reset _ _ r0
    obtain ⟨q1, v, e1, e1'⟩ := h1.reset _ _ r1
    refine ⟨⟨_, _, _, _, rfl, rfl, q0, q1⟩, Fin.append w v, ?_, ?_⟩
    · simp only [finitePower] at e0 e1
      simp [finiteMulti, multiReset, e0, e1, List.ofFn_fin_append]
    · simp only [finitePower] at e0' e1'
      simp [finiteMulti, multiReset, e0', e1', onBoth_append, List.ofFn_fin_append]

/-- two averaged converters in a multi converter -/
theorem cmulti_twin {n0 n1 : ℕ} {rest0 busy0 rest1 busy1 : CConv ℝ → CConv ℝ → Prop} {mate0 mate1 : List ℝ → List ℝ → Prop}
    {τ0 : (Fin n0 → ℝ) → Fin n0 → ℝ} {τ1 : (Fin n1 → ℝ) → Fin n1 → ℝ} (h0 : Twin contPower rest0 busy0 mate0 τ0)
    (h1 : Twin contPower rest1 busy1 mate1 τ1) (d0 : ∀ c c', rest0 c c' → c.dim = n0 ∧ c'.dim = n0)
    (d1 : ∀ c c', rest1 c c' → c.dim = n1 ∧ c'.dim = n1) :
    Twin contMulti (Both rest0 rest1) (Both busy0 busy1) (BothActions n0 n1 mate0 mate1) (onBoth τ0 τ1) := by
  refine ⟨?_, ?_, ?_, ?_, ?_⟩
  · rintro _ _ _ _ t ⟨c0, c1, c0', c1', rfl, rfl, r0, r1⟩ ⟨a0, a1, a0', a1', rfl, rfl, l0, l0', l1, l1', m0, m1⟩
    obtain ⟨p0, p0'⟩ := d0 _ _ r0
    obtain ⟨p1, p1'⟩ := d1 _ _ r1
    obtain ⟨⟨t0, e0, e0'⟩, b0⟩ := h0.set _ _ _ _ t r0 m0
    obtain ⟨⟨t1, e1, e1'⟩, b1⟩ := h1.set _ _ _ _ t r1 m1
    simp only [contPower] at e0 e0' e1 e1' b0 b1
    simp only [contMulti, cMultiSetAction, cMultiSetActionAux, p0, p0', p1, p1', List.take_left' l0, List.take_left' l0',
      List.drop_left' l0, List.drop_left' l0', List.take_of_length_le l1.le, List.take_of_length_le l1'.le, e0, e0', e1, e1']
    exact ⟨⟨_, rfl, rfl⟩, _, _, _, _, rfl, rfl, b0, b1⟩
  · rintro _ _ i ⟨c0, c1, c0', c1', rfl, rfl, r0, r1⟩
    rw [append_parts i, onBoth_append]
    generalize (fun k => i (Fin.castAdd n1 k)) = w
    generalize (fun k => i (Fin.natAdd n0 k)) = v
    obtain ⟨p0, p0'⟩ := d0 _ _ (h0.free _ _ r0)
    obtain ⟨p1, p1'⟩ := d1 _ _ (h1.free _ _ r1)
    have e0 := h0.draw _ _ w r0
    have e1 := h1.draw _ _ v r1
    simp only [contPower] at e0 e1
    simp only [contMulti, cMultiISup, p0, p0', p1, p1', take_parts]
    rw [List.take_of_length_le (by simp), List.take_of_length_le (by simp), e0, e1]
  · rintro _ _ i t ⟨c0, c1, c0', c1', rfl, rfl, r0, r1⟩
    rw [append_parts i, onBoth_append]
    generalize (fun k => i (Fin.castAdd n1 k)) = w
    generalize (fun k => i (Fin.natAdd n0 k)) = v
    obtain ⟨p0, p0'⟩ := d0 _ _ (h0.free _ _ r0)
    obtain ⟨p1, p1'⟩ := d1 _ _ (h1.free _ _ r1)
    obtain ⟨⟨u0, e0, e0'⟩, b0⟩ := h0.conv _ _ w t r0
    obtain ⟨⟨u1, e1, e1'⟩, b1⟩ := h1.conv _ _ v t r1
    simp only [contPower] at e0 e0' e1 e1' b0 b1
    have k : ∀ v : Fin n1 → ℝ, List.take n1 (List.ofFn v) = List.ofFn v := fun v => List.take_of_length_le (by simp)
    simp only [contMulti, cMultiConvert, p0, p0', p1, p1', take_parts, k, e0, e0', e1, e1']
    refine ⟨⟨Fin.append u0 u1, ?_, ?_⟩, _, _, _, _, rfl, rfl, b0, b1⟩
    · simp [List.ofFn_fin_append]
    · simp [onBoth_append, List.ofFn_fin_append]
  · rintro _ _ ⟨c0, c1, c0', c1', rfl, rfl, r0, r1⟩
    exact ⟨_, _, _, _, rfl, rfl, h0.free _ _ r0, h1.free _ _ r1⟩
  · rintro _ _ ⟨c0, c1, c0', c1', rfl, rfl, r0, r1⟩
    obtain ⟨q0, w, e0, e0'⟩ := h0.reset _ _ r0
    obtain ⟨q1, v, e1, e1'⟩ := h1.reset _ _ r1
    refine ⟨⟨_, _, _, _, rfl, rfl, q0, q1⟩, Fin.append w v, ?_, ?_⟩
    · simp only [contPower] at e0 e1
      simp [contMulti, cMultiReset, e0, e1, List.ofFn_fin_append]
    · simp only [contPower] at e0' e1'
      simp [contMulti, cMultiReset, e0', e1', onBoth_append, List.ofFn_fin_append]

end converters

end

end GEM.Props
