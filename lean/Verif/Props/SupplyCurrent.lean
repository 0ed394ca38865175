import Verif.Props.Voltages
import Verif.Props.Motors
import Verif.Props.Converters

/-!
# C119: the current that the supply is charged with
-/

set_option linter.unusedSectionVars false

namespace GEM.Props

noncomputable section

open GEM GEM.Sys GEM.Conv GEM.Motor GEM.Registry GEM.Spec

/-! ## Statement -/

section statement

variable {Y U A S C P : Type}

/-- The same components, whose supply notes each request (time, current) and whose converter notes the currents it was given and its
outputs, latest first. -/
def spied (p : Parts ℝ Y U A S C P) : Parts ℝ Y U A S (C × List (List ℝ × List ℝ)) (P × List (ℝ × ℝ)) where
  solverT := p.solverT
  solverY := p.solverY
  integrate := p.integrate
  setInitial := p.setInitial
  setAction c a t := (((p.setAction c.1 a t).1, c.2), (p.setAction c.1 a t).2)
  convert c i t := (((p.convert c.1 i t).1, match (p.convert c.1 i t).2 with | .ok u => (i, u) :: c.2 | .error _ => c.2),
    (p.convert c.1 i t).2)
  iSup c i := p.iSup c.1 i
  convReset c := (((p.convReset c.1).1, c.2), (p.convReset c.1).2)
  getVoltage s t i := (((p.getVoltage s.1 t i).1, (t, i) :: s.2), (p.getVoltage s.1 t i).2)
  supplyReset s := (((p.supplyReset s.1).1, s.2), (p.supplyReset s.1).2)

/-- a system with notes, with those removed -/
def unspied (st : St ℝ S (C × List (List ℝ × List ℝ)) (P × List (ℝ × ℝ))) : St ℝ S C P :=
  ⟨st.t, st.k, st.solver, st.conv.1, st.supply.1⟩

/-- a system with empty notes -/
def blank (st : St ℝ S C P) : St ℝ S (C × List (List ℝ × List ℝ)) (P × List (ℝ × ℝ)) :=
  ⟨st.t, st.k, st.solver, (st.conv, []), (st.supply, [])⟩

/-- The system after a sequence of resets to ODE states and steps. -/
def after (p : Parts ℝ Y U A S C P) (f : Frame ℝ Y U A) (rep : Y → List ℝ → List ℝ → Except Err (List ℝ)) (tau : ℝ)
    (limits : List ℝ) : St ℝ S C P → List (Y ⊕ A) → St ℝ S C P
  | st, [] => st
  | st, .inl y :: ops => after p f rep tau limits (reset p rep limits st y).1 ops
  | st, .inr a :: ops => after p f rep tau limits (simulate p f tau limits st a).1 ops

/-- The two notes belong together, entry by entry, and each pair satisfies the law, which may depend on the outputs before. -/
def Booked (law : Option (List ℝ) → List ℝ → List ℝ → ℝ → Prop) : List (ℝ × ℝ) → List (List ℝ × List ℝ) → Prop
  | [], [] => True
  | (_, is) :: l, (i, u) :: m => law (m.head?.map Prod.snd) i u is ∧ Booked law l m
  | _, _ => False

/-- In every history of resets and legal actions. -/
def AlwaysBooked (p : Parts ℝ Y U A S C P) (f : Frame ℝ Y U A) (rep : Y → List ℝ → List ℝ → Except Err (List ℝ)) (tau : ℝ)
    (limits : List ℝ) (conv : C) (shape : Y → Prop) (legal : A → Prop)
    (law : Option (List ℝ) → List ℝ → List ℝ → ℝ → Prop) : Prop :=
  ∀ (st : St ℝ S C P) (y : Y) (ops : List (Y ⊕ A)), st.conv = conv → shape y → (∀ y', .inl y' ∈ ops → shape y') →
    (∀ a, .inr a ∈ ops → legal a) →
    Booked law (after (spied p) f rep tau limits (blank st) (.inl y :: ops)).supply.2
      (after (spied p) f rep tau limits (blank st) (.inl y :: ops)).conv.2

end statement

/-! ## The observers do not interfere -/

theorem simulate_eq {Y U A S C P : Type} (p : Parts ℝ Y U A S C P) (f : Frame ℝ Y U A) (tau : ℝ) (limits : List ℝ) (st : St ℝ S C P)
    (a : A) : simulate p f tau limits st a =
      match (p.setAction st.conv (f.action (p.solverY st.solver) a) st.t).2 with
      | .error e => ({ st with conv := (p.setAction st.conv (f.action (p.solverY st.solver) a) st.t).1 }, .error e)
      | .ok times =>
        Call.bind (pieces p f times.dropLast { st with conv := (p.setAction st.conv (f.action (p.solverY st.solver) a) st.t).1 })
          (fun st _ => Call.bind (piece p f f.lastU st (st.t + tau)) (fun st' uv =>
            ({ st' with t := p.solverT st'.solver, k := st'.k + 1 },
              (f.report (p.solverY st.solver) (p.solverY st'.solver) uv.1 uv.2).bind (fun s => divLimits s limits)))) := by
  unfold simulate
  dsimp only
  cases (p.setAction st.conv (f.action (p.solverY st.solver) a) st.t).2 <;> rfl

section observers

variable {Y U A S C P : Type} (p : Parts ℝ Y U A S C P) (f : Frame ℝ Y U A) (rep : Y → List ℝ → List ℝ → Except Err (List ℝ)) (tau : ℝ)
  (limits : List ℝ)

theorem piece_spied (toU : Y → List ℝ → Except Err U) (st : St ℝ S (C × List (List ℝ × List ℝ)) (P × List (ℝ × ℝ))) (t : ℝ) :
    unspied (piece (spied p) f toU st t).1 = (piece p f toU (unspied st) t).1 ∧
    (piece (spied p) f toU st t).2 = (piece p f toU (unspied st) t).2 := by
  unfold piece
  simp only [spied, unspied]
  cases p.iSup st.conv.1 (f.iIn (p.solverY st.solver)) with
  | error e => exact ⟨rfl, rfl⟩
  | ok is =>
    dsimp only
    cases (p.convert st.conv.1 (f.iIn (p.solverY st.solver)) (p.solverT st.solver)).2 with
    | error e => exact ⟨rfl, rfl⟩
    | ok u =>
      dsimp only
      cases toU (p.solverY st.solver) (products u (p.getVoltage st.supply.1 st.t is).2) with
      | error e => exact ⟨rfl, rfl⟩
      | ok v => exact ⟨rfl, rfl⟩

theorem pieces_spied (ts : List ℝ) (st : St ℝ S (C × List (List ℝ × List ℝ)) (P × List (ℝ × ℝ))) :
    unspied (pieces (spied p) f ts st).1 = (pieces p f ts (unspied st)).1 ∧
    (pieces (spied p) f ts st).2 = (pieces p f ts (unspied st)).2 := by
  induction ts generalizing st with
  | nil => exact ⟨rfl, rfl⟩
  | cons t ts ih =>
    obtain ⟨h1, h2⟩ := piece_spied p f f.loopU st t
    simp only [pieces]
    generalize piece (spied p) f f.loopU st t = R at h1 h2
    generalize piece p f f.loopU (unspied st) t = R' at h1 h2
    obtain ⟨s1, r1⟩ := R
    obtain ⟨s2, r2⟩ := R'
    dsimp only at h1 h2
    subst h1 h2
    cases r1 with
    | error e => exact ⟨rfl, rfl⟩
    | ok x => exact ih s1

theorem simulate_spied (st : St ℝ S (C × List (List ℝ × List ℝ)) (P × List (ℝ × ℝ))) (a : A) :
    unspied (simulate (spied p) f tau limits st a).1 = (simulate p f tau limits (unspied st) a).1 ∧
    (simulate (spied p) f tau limits st a).2 = (simulate p f tau limits (unspied st) a).2 := by
  rw [simulate_eq, simulate_eq]
  simp only [show ∀ a, (spied p).setAction st.conv a st.t = (((p.setAction st.conv.1 a st.t).1, st.conv.2), (p.setAction st.conv.1 a st.t).2)
    from fun _ => rfl, show (unspied st).conv = st.conv.1 from rfl, show (unspied st).t = st.t from rfl,
    show (unspied st).solver = st.solver from rfl, show (spied p).solverY = p.solverY from rfl]
  cases (p.setAction st.conv.1 (f.action (p.solverY st.solver) a) st.t).2 with
  | error e => exact ⟨rfl, rfl⟩
  | ok times =>
    dsimp only
    obtain ⟨h1, h2⟩ := pieces_spied p f times.dropLast
      { st with conv := ((p.setAction st.conv.1 (f.action (p.solverY st.solver) a) st.t).1, st.conv.2) }
    change _ = (pieces p f times.dropLast { t := st.t, k := (unspied st).k, solver := st.solver, conv := (p.setAction st.conv.1
      (f.action (p.solverY st.solver) a) st.t).1, supply := (unspied st).supply }).1 at h1
    change _ = (pieces p f times.dropLast { t := st.t, k := (unspied st).k, solver := st.solver, conv := (p.setAction st.conv.1
      (f.action (p.solverY st.solver) a) st.t).1, supply := (unspied st).supply }).2 at h2
    generalize pieces (spied p) f times.dropLast _ = R at h1 h2 ⊢
    generalize pieces p f times.dropLast _ = R' at h1 h2 ⊢
    obtain ⟨s1, r1⟩ := R
    obtain ⟨s2, r2⟩ := R'
    dsimp only at h1 h2
    subst h1 h2
    cases r1 with
    | error e => exact ⟨rfl, rfl⟩
    | ok x =>
      simp only [Call.bind]
      obtain ⟨h3, h4⟩ := piece_spied p f f.lastU s1 (s1.t + tau)
      change _ = (piece p f f.lastU (unspied s1) ((unspied s1).t + tau)).1 at h3
      change _ = (piece p f f.lastU (unspied s1) ((unspied s1).t + tau)).2 at h4
      generalize piece (spied p) f f.lastU s1 (s1.t + tau) = R at h3 h4 ⊢
      generalize piece p f f.lastU (unspied s1) ((unspied s1).t + tau) = R' at h3 h4 ⊢
      obtain ⟨s3, r3⟩ := R
      obtain ⟨s4, r4⟩ := R'
      dsimp only at h3 h4
      subst h3 h4
      cases r3 with
      | error e => exact ⟨rfl, rfl⟩
      | ok uv => exact ⟨rfl, rfl⟩

/-- The answers are those of the system that is not observed. -/
theorem c119_observed (st : St ℝ S C P) (ops : List (Y ⊕ A)) :
    answers (spied p) f rep tau limits (blank st) ops = answers p f rep tau limits st ops := by
  have key : ∀ (ops : List (Y ⊕ A)) (st : St ℝ S (C × List (List ℝ × List ℝ)) (P × List (ℝ × ℝ))),
      answers (spied p) f rep tau limits st ops = answers p f rep tau limits (unspied st) ops := by
    intro ops
    induction ops with
    | nil => intro st; rfl
    | cons op ops ih =>
      intro st
      cases op with
      | inl y =>
        simp only [answers]
        rw [ih]
        rfl
      | inr a =>
        obtain ⟨h1, h2⟩ := simulate_spied p f tau limits st a
        simp only [answers]
        rw [ih, h1, h2]
  exact key ops (blank st)

end observers

/-! ## The general argument -/

/-- Converters that obey the law as long as the currents are good; `rel c o` for a converter between two steps with latest outputs `o`,
`armed c o` for one that has got its action. -/
structure Drawn {A C : Type} (pw : Power A C) (legal : A → Prop) (good : List ℝ → Prop) (rel armed : C → Option (List ℝ) → Prop)
    (law : Option (List ℝ) → List ℝ → List ℝ → ℝ → Prop) : Prop where
  set : ∀ c o a t, rel c o → legal a → armed (pw.setAction c a t).1 o
  conv : ∀ c o i t, armed c o → good i → ∃ is u, pw.iSup c i = .ok is ∧ (pw.convert c i t).2 = .ok u ∧ law o i u is ∧
    armed (pw.convert c i t).1 (some u)
  keep : ∀ c o, armed c o → rel c o
  reset : ∀ c o, rel c o → rel (pw.reset c).1 o

section general

variable {Y U A S C P : Type} {p : Parts ℝ Y U A S C P} {f : Frame ℝ Y U A} {rep : Y → List ℝ → List ℝ → Except Err (List ℝ)} {tau : ℝ}
  {limits : List ℝ} {pw : Power A C} {legal : A → Prop} {good : List ℝ → Prop} {rel armed : C → Option (List ℝ) → Prop}
  {law : Option (List ℝ) → List ℝ → List ℝ → ℝ → Prop} {shape : Y → Prop}

/-- notes that satisfy the law, with a converter and a motor in these conditions -/
structure Noted (p : Parts ℝ Y U A S C P) (shape : Y → Prop) (cond : C → Option (List ℝ) → Prop)
    (law : Option (List ℝ) → List ℝ → List ℝ → ℝ → Prop) (st : St ℝ S (C × List (List ℝ × List ℝ)) (P × List (ℝ × ℝ))) : Prop where
  shape : shape (p.solverY st.solver)
  cond : cond st.conv.1 (st.conv.2.head?.map Prod.snd)
  booked : Booked law st.supply.2 st.conv.2

theorem piece_noted (hu : Uses p pw) (hs : Shaped p shape) (hd : Drawn pw legal good rel armed law) (hg : ∀ y, shape y → good (f.iIn y))
    (toU : Y → List ℝ → Except Err U) {st : St ℝ S (C × List (List ℝ × List ℝ)) (P × List (ℝ × ℝ))} (h : Noted p shape armed law st)
    (t : ℝ) : Noted p shape armed law (piece (spied p) f toU st t).1 := by
  obtain ⟨-, u2, u3, -⟩ := hu
  obtain ⟨is, u, e1, e2, hl, ha⟩ := hd.conv st.conv.1 _ (f.iIn (p.solverY st.solver)) (p.solverT st.solver) h.cond (hg _ h.shape)
  rw [← u2] at e2 ha
  rw [← u3] at e1
  have hb : Booked law ((st.t, is) :: st.supply.2) ((f.iIn (p.solverY st.solver), u) :: st.conv.2) := ⟨hl, h.booked⟩
  unfold piece
  simp only [spied, e1, e2]
  split
  · exact ⟨h.shape, ha, hb⟩
  · exact ⟨hs.integrate _ _ _ h.shape, ha, hb⟩

theorem pieces_noted (hu : Uses p pw) (hs : Shaped p shape) (hd : Drawn pw legal good rel armed law) (hg : ∀ y, shape y → good (f.iIn y))
    (ts : List ℝ) {st : St ℝ S (C × List (List ℝ × List ℝ)) (P × List (ℝ × ℝ))} (h : Noted p shape armed law st) :
    Noted p shape armed law (pieces (spied p) f ts st).1 := by
  induction ts generalizing st with
  | nil => exact h
  | cons t ts ih =>
    have h1 := piece_noted hu hs hd hg f.loopU h t
    simp only [pieces]
    generalize piece (spied p) f f.loopU st t = R at h1
    obtain ⟨s1, r1⟩ := R
    cases r1 with
    | error e => exact h1
    | ok x => exact ih h1

theorem simulate_noted (hu : Uses p pw) (hs : Shaped p shape) (hd : Drawn pw legal good rel armed law) (hg : ∀ y, shape y → good (f.iIn y))
    (hact : ∀ y a, f.action y a = a) {st : St ℝ S (C × List (List ℝ × List ℝ)) (P × List (ℝ × ℝ))} (h : Noted p shape rel law st)
    {a : A} (ha : legal a) : Noted p shape rel law (simulate (spied p) f tau limits st a).1 := by
  have keep : ∀ {st}, Noted p shape armed law st → Noted p shape rel law st := fun h => ⟨h.shape, hd.keep _ _ h.cond, h.booked⟩
  have h0 : Noted p shape armed law { st with conv := ((p.setAction st.conv.1 a st.t).1, st.conv.2) } :=
    ⟨h.shape, by rw [hu.1]; exact hd.set _ _ _ _ h.cond ha, h.booked⟩
  rw [simulate_eq, hact, show (spied p).setAction st.conv a st.t
    = (((p.setAction st.conv.1 a st.t).1, st.conv.2), (p.setAction st.conv.1 a st.t).2) from rfl]
  dsimp only
  cases (p.setAction st.conv.1 a st.t).2 with
  | error e => exact keep h0
  | ok times =>
    dsimp only
    have h1 := pieces_noted hu hs hd hg times.dropLast h0
    generalize pieces (spied p) f times.dropLast { st with conv := ((p.setAction st.conv.1 a st.t).1, st.conv.2) } = R at h1
    obtain ⟨s1, r1⟩ := R
    cases r1 with
    | error e => exact keep h1
    | ok x =>
      simp only [Call.bind]
      have h2 := piece_noted hu hs hd hg f.lastU h1 (s1.t + tau)
      generalize piece (spied p) f f.lastU s1 (s1.t + tau) = R at h2
      obtain ⟨s2, r2⟩ := R
      cases r2 with
      | error e => exact keep h2
      | ok uv => exact keep ⟨h2.shape, h2.cond, h2.booked⟩

theorem always_booked (hu : Uses p pw) (hs : Shaped p shape) (hd : Drawn pw legal good rel armed law)
    (hg : ∀ y, shape y → good (f.iIn y)) (hact : ∀ y a, f.action y a = a) {conv : C} (hc : rel conv none) :
    AlwaysBooked p f rep tau limits conv shape legal law := by
  have hreset : ∀ {st : St ℝ S (C × List (List ℝ × List ℝ)) (P × List (ℝ × ℝ))} {y}, rel st.conv.1 (st.conv.2.head?.map Prod.snd) →
      Booked law st.supply.2 st.conv.2 → shape y → Noted p shape rel law (reset (spied p) rep limits st y).1 := by
    intro st y hr hb hy
    refine ⟨hs.initial _ _ _ hy, ?_, hb⟩
    show rel (p.convReset st.conv.1).1 _
    rw [hu.2.2.2]
    exact hd.reset _ _ hr
  have key : ∀ (ops : List (Y ⊕ A)) (st : St ℝ S (C × List (List ℝ × List ℝ)) (P × List (ℝ × ℝ))), Noted p shape rel law st →
      (∀ y', .inl y' ∈ ops → shape y') → (∀ a, .inr a ∈ ops → legal a) →
      Noted p shape rel law (after (spied p) f rep tau limits st ops) := by
    intro ops
    induction ops with
    | nil => intro st h _ _; exact h
    | cons op ops ih =>
      intro st h h1 h2
      cases op with
      | inl y => exact ih _ (hreset h.cond h.booked (h1 y (by simp))) (fun y' h => h1 y' (by simp [h])) (fun a h => h2 a (by simp [h]))
      | inr a =>
        exact ih _ (simulate_noted (tau := tau) (limits := limits) hu hs hd hg hact h (h2 a (by simp))) (fun y' h => h1 y' (by simp [h]))
          (fun a h => h2 a (by simp [h]))
  intro st y ops hst hy h1 h2
  exact (key ops _ (hreset (st := blank st) (by rw [show (blank st).conv = (st.conv, []) from rfl, hst]; exact hc) trivial hy) h1 h2).booked

end general

/-! ## Finite converters -/

/-- a half bridge without interlocking, latest output `o` -/
def Half (c : TwoQC ℝ) (o : Option ℝ) : Prop :=
  c.il = 0 ∧ ∀ u, o = some u → (c.state = 1 ∧ u = 1) ∨ (c.state = 2 ∧ u = 0)

/-- a half bridge that has got its action -/
def HalfSet (c : TwoQC ℝ) (o : Option ℝ) : Prop := Half c o ∧ c.state ≤ 2 ∧ (c.pattern = [1] ∨ c.pattern = [2])
/-- a half bridge between two steps -/
def HalfRest (c : TwoQC ℝ) (o : Option ℝ) : Prop := Half c o ∧ c.state ≤ 2

theorem half_set {c : TwoQC ℝ} {o : Option ℝ} (h : HalfRest c o) {a : ℕ} (ha : a = 1 ∨ a = 2) (t : ℝ) :
    HalfSet (c.setAction a t).1 o ∧ (c.setAction a t).2 = .ok [t + c.tau] := by
  obtain ⟨⟨h1, h2⟩, h3⟩ := h
  rcases ha with rfl | rfl <;> simp [TwoQC.setAction, h1, HalfSet, Half, h3] <;> exact h2

theorem half_convert {c : TwoQC ℝ} {o : Option ℝ} (h : HalfSet c o) (x t : ℝ) :
    ∃ c' u w, c.convert [x] t = (c', .ok [u]) ∧ HalfSet c' (some u) ∧ c.iSup [x] = .ok w ∧ ∀ v, o = some v → w = v * x := by
  obtain ⟨⟨h1, h2⟩, h3, h4⟩ := h
  have hw : ∃ w, c.iSup [x] = .ok w ∧ ∀ v, o = some v → w = v * x := by
    obtain h | h | h : c.state = 0 ∨ c.state = 1 ∨ c.state = 2 := by omega
    · exact ⟨if x < 0 then x else 0, by simp [TwoQC.iSup, h], fun v e => by rcases h2 v e with ⟨h', -⟩ | ⟨h', -⟩ <;> omega⟩
    · refine ⟨x, by simp [TwoQC.iSup, h], fun v e => ?_⟩
      rcases h2 v e with ⟨-, rfl⟩ | ⟨h', -⟩
      · simp
      · omega
    · refine ⟨0, by simp [TwoQC.iSup, h], fun v e => ?_⟩
      rcases h2 v e with ⟨h', -⟩ | ⟨-, rfl⟩
      · omega
      · simp
  obtain ⟨w, hw⟩ := hw
  rcases h4 with h4 | h4
  · exact ⟨{ c with state := 1 }, 1, w, by simp [TwoQC.convert, h4], ⟨⟨h1, by simp⟩, by simp, .inl h4⟩, hw⟩
  · exact ⟨{ c with state := 2 }, 0, w, by simp [TwoQC.convert, h4], ⟨⟨h1, by simp⟩, by simp, .inr h4⟩, hw⟩

/-- bridges whose half bridges are in this condition -/
def BridgeRel (P : TwoQC ℝ → Option ℝ → Prop) : Bridge → FConv ℝ → Option (List ℝ) → Prop
  | .four, .four d, none => P d.sub0 none ∧ P d.sub1 none
  | .four, .four d, some u => ∃ a b, u = [a - b] ∧ P d.sub0 (some a) ∧ P d.sub1 (some b)
  | .b6, .b6 d, none => P d.s0 none ∧ P d.s1 none ∧ P d.s2 none
  | .b6, .b6 d, some u => ∃ a b c, u = [a - 1 / 2, b - 1 / 2, c - 1 / 2] ∧ P d.s0 (some a) ∧ P d.s1 (some b) ∧ P d.s2 (some c)
  | _, _, _ => False

/-- half the sum of the currents of a three phase bridge, whose outputs refer to the middle of the supply -/
def star : Bridge → List ℝ → ℝ
  | .four, _ => 0
  | .b6, i => 1 / 2 * i.sum

def stars : List Bridge → List ℝ → ℝ
  | [], _ => 0
  | k :: ks, i => star k (i.take (bridgeKind k).dim) + stars ks (i.drop (bridgeKind k).dim)

/-- the power at the outputs before, for the currents now -/
def lateLaw (s : List ℝ → ℝ) : Option (List ℝ) → List ℝ → List ℝ → ℝ → Prop :=
  fun o i _ is => ∀ v, o = some v → is = dot v i + s i

/-- the power at the outputs now -/
def nowLaw (s : List ℝ → ℝ) : Option (List ℝ) → List ℝ → List ℝ → ℝ → Prop := fun _ i u is => is = dot u i + s i

theorem rel_kind {P : TwoQC ℝ → Option ℝ → Prop} {k : Bridge} {c : FConv ℝ} {o : Option (List ℝ)} (h : BridgeRel P k c o) :
    fKind c = bridgeKind k := by
  cases k <;> cases c <;> cases o <;> first | rfl | exact h.elim

theorem bridge_set (k : Bridge) (c : FConv ℝ) (o : Option (List ℝ)) (a : ℕ) (t : ℝ) (h : BridgeRel HalfRest k c o)
    (ha : a < (bridgeKind k).actions) :
    BridgeRel HalfSet k (c.setAction a t).1 o ∧ ∃ ts, (c.setAction a t).2 = .ok ts := by
  have hk := rel_kind h
  cases k <;> cases c <;> simp only [fKind, bridgeKind, reduceCtorEq] at hk
  · rename_i d
    have ha : a < 4 := ha
    have f0 : fourAction0 a = 1 ∨ fourAction0 a = 2 := by interval_cases a <;> simp [fourAction0]
    have f1 : fourAction1 a = 1 ∨ fourAction1 a = 2 := by interval_cases a <;> simp [fourAction1]
    cases o with
    | none =>
      obtain ⟨s0, e0⟩ := half_set h.1 f0 t
      obtain ⟨s1, e1⟩ := half_set h.2 f1 t
      simp only [FConv.setAction, FourQC.setAction, if_pos ha, e0, e1, Prod.map, id]
      exact ⟨⟨s0, s1⟩, _, rfl⟩
    | some u =>
      obtain ⟨x, y, rfl, h0, h1⟩ := h
      obtain ⟨s0, e0⟩ := half_set h0 f0 t
      obtain ⟨s1, e1⟩ := half_set h1 f1 t
      simp only [FConv.setAction, FourQC.setAction, if_pos ha, e0, e1, Prod.map, id]
      exact ⟨⟨x, y, rfl, s0, s1⟩, _, rfl⟩
  · rename_i d
    have ha : a < 8 := ha
    have f0 : (b6Sub a).1 = 1 ∨ (b6Sub a).1 = 2 := by interval_cases a <;> simp [b6Sub]
    have f1 : (b6Sub a).2.1 = 1 ∨ (b6Sub a).2.1 = 2 := by interval_cases a <;> simp [b6Sub]
    have f2 : (b6Sub a).2.2 = 1 ∨ (b6Sub a).2.2 = 2 := by interval_cases a <;> simp [b6Sub]
    cases o with
    | none =>
      obtain ⟨s0, e0⟩ := half_set h.1 f0 t
      obtain ⟨s1, e1⟩ := half_set h.2.1 f1 t
      obtain ⟨s2, e2⟩ := half_set h.2.2 f2 t
      simp only [FConv.setAction, B6.setAction, if_pos ha, e0, e1, e2, Prod.map, id]
      exact ⟨⟨s0, s1, s2⟩, _, rfl⟩
    | some u =>
      obtain ⟨x, y, z, rfl, h0, h1, h2⟩ := h
      obtain ⟨s0, e0⟩ := half_set h0 f0 t
      obtain ⟨s1, e1⟩ := half_set h1 f1 t
      obtain ⟨s2, e2⟩ := half_set h2 f2 t
      simp only [FConv.setAction, B6.setAction, if_pos ha, e0, e1, e2, Prod.map, id]
      exact ⟨⟨x, y, z, rfl, s0, s1, s2⟩, _, rfl⟩

theorem bridge_convert (k : Bridge) (c : FConv ℝ) (o : Option (List ℝ)) (i : List ℝ) (t : ℝ) (h : BridgeRel HalfSet k c o)
    (hi : i.length = (bridgeKind k).dim) : ∃ is u, c.iSup i = .ok is ∧ (c.convert i t).2 = .ok u ∧ lateLaw (star k) o i u is ∧
      BridgeRel HalfSet k (c.convert i t).1 (some u) ∧ u.length = (bridgeKind k).dim := by
  have hk := rel_kind h
  cases k <;> cases c <;> simp only [fKind, bridgeKind, reduceCtorEq] at hk
  · rename_i d
    obtain ⟨x, rfl⟩ := one_of_length hi
    obtain ⟨o0, o1, h0, h1, ho⟩ : ∃ o0 o1, HalfSet d.sub0 o0 ∧ HalfSet d.sub1 o1 ∧
        ∀ v, o = some v → ∃ a b, v = [a - b] ∧ o0 = some a ∧ o1 = some b := by
      cases o with
      | none => exact ⟨none, none, h.1, h.2, by simp⟩
      | some v =>
        obtain ⟨a, b, rfl, h0, h1⟩ := h
        exact ⟨some a, some b, h0, h1, fun v e => ⟨a, b, by simpa using e.symm, rfl, rfl⟩⟩
    obtain ⟨c0, u0, w0, e0, s0, i0, l0⟩ := half_convert h0 x t
    obtain ⟨c1, u1, w1, e1, s1, i1, l1⟩ := half_convert h1 (-x) t
    simp only [FConv.iSup, FourQC.iSup, i0, i1, FConv.convert, FourQC.convert, e0, e1, Prod.map, id]
    refine ⟨_, _, rfl, rfl, ?_, ⟨u0, u1, rfl, s0, s1⟩, rfl⟩
    intro v e
    obtain ⟨a, b, rfl, e0, e1⟩ := ho v e
    rw [l0 a e0, l1 b e1]
    simp only [dot, star]
    ring
  · rename_i d
    obtain ⟨x, y, z, rfl⟩ := List.length_eq_three.1 hi
    obtain ⟨o0, o1, o2, h0, h1, h2, ho⟩ : ∃ o0 o1 o2, HalfSet d.s0 o0 ∧ HalfSet d.s1 o1 ∧ HalfSet d.s2 o2 ∧
        ∀ v, o = some v → ∃ a b c, v = [a - 1 / 2, b - 1 / 2, c - 1 / 2] ∧ o0 = some a ∧ o1 = some b ∧ o2 = some c := by
      cases o with
      | none => exact ⟨none, none, none, h.1, h.2.1, h.2.2, by simp⟩
      | some v =>
        obtain ⟨a, b, c, rfl, h0, h1, h2⟩ := h
        exact ⟨some a, some b, some c, h0, h1, h2, fun v e => ⟨a, b, c, by simpa using e.symm, rfl, rfl, rfl⟩⟩
    obtain ⟨c0, u0, w0, e0, s0, i0, l0⟩ := half_convert h0 x t
    obtain ⟨c1, u1, w1, e1, s1, i1, l1⟩ := half_convert h1 y t
    obtain ⟨c2, u2, w2, e2, s2, i2, l2⟩ := half_convert h2 z t
    simp only [FConv.iSup, B6.iSup, sumZip, i0, i1, i2, FConv.convert, B6.convert, e0, e1, e2, Prod.map, id]
    refine ⟨_, _, rfl, rfl, ?_, ⟨u0, u1, u2, rfl, s0, s1, s2⟩, rfl⟩
    intro v e
    obtain ⟨a, b, c, rfl, e0, e1, e2⟩ := ho v e
    rw [l0 a e0, l1 b e1, l2 c e2]
    simp only [dot, star, List.sum_cons, List.sum_nil]
    ring

theorem bridge_keep (k : Bridge) (c : FConv ℝ) (o : Option (List ℝ)) (h : BridgeRel HalfSet k c o) : BridgeRel HalfRest k c o := by
  have keep : ∀ {c o}, HalfSet c o → HalfRest c o := fun h => ⟨h.1, h.2.1⟩
  have hk := rel_kind h
  cases k <;> cases c <;> simp only [fKind, bridgeKind, reduceCtorEq] at hk
  · cases o with
    | none => exact ⟨keep h.1, keep h.2⟩
    | some u =>
      obtain ⟨x, y, rfl, h0, h1⟩ := h
      exact ⟨x, y, rfl, keep h0, keep h1⟩
  · cases o with
    | none => exact ⟨keep h.1, keep h.2.1, keep h.2.2⟩
    | some u =>
      obtain ⟨x, y, z, rfl, h0, h1, h2⟩ := h
      exact ⟨x, y, z, rfl, keep h0, keep h1, keep h2⟩

theorem bridge_reset (k : Bridge) (c : FConv ℝ) (o : Option (List ℝ)) (h : BridgeRel HalfRest k c o) :
    BridgeRel HalfRest k c.reset.1 o := by
  have hk := rel_kind h
  cases k <;> cases c <;> simp only [fKind, bridgeKind, reduceCtorEq] at hk
  · cases o <;> exact h
  · cases o <;> exact h

theorem bridge_new (k : Bridge) (tau : ℝ) : BridgeRel HalfRest k ((newF k).setTau tau) none := by
  cases k <;> simp [BridgeRel, newF, FConv.setTau, FourQC.new, B6.new, TwoQC.new, HalfRest, Half]

theorem f_drawn (k : Bridge) : Drawn finitePower (fun a => a < (bridgeKind k).actions) (fun i => i.length = (bridgeKind k).dim)
    (BridgeRel HalfRest k) (BridgeRel HalfSet k) (lateLaw (star k)) where
  set c o a t h ha := (bridge_set k c o a t h ha).1
  conv c o i t h hi := by
    obtain ⟨is, u, h1, h2, h3, h4, -⟩ := bridge_convert k c o i t h hi
    exact ⟨is, u, h1, h2, h3, h4⟩
  keep := bridge_keep k
  reset := bridge_reset k

/-! ### Several of them -/

/-- bridges in a row, whose outputs are put together -/
def RowRel {C : Type} (R : Bridge → C → Option (List ℝ) → Prop) : List Bridge → List C → Option (List ℝ) → Prop
  | [], [], o => ∀ u, o = some u → u = []
  | k :: ks, c :: cs, none => R k c none ∧ RowRel R ks cs none
  | k :: ks, c :: cs, some u => ∃ a b, u = a ++ b ∧ a.length = (bridgeKind k).dim ∧ R k c (some a) ∧ RowRel R ks cs (some b)
  | _, _, _ => False

theorem dot_append {a b x y : List ℝ} (h : a.length = x.length) : dot (a ++ b) (x ++ y) = dot a x + dot b y := by
  induction a generalizing x with
  | nil =>
    obtain rfl : x = [] := List.length_eq_zero_iff.1 h.symm
    simp [dot]
  | cons v a ih =>
    cases x with
    | nil => simp at h
    | cons w x =>
      simp only [List.cons_append, dot]
      rw [ih (by simpa using h)]
      ring

/-- the parts of a row -/
theorem row_parts {C : Type} {R : Bridge → C → Option (List ℝ) → Prop} {k : Bridge} {ks : List Bridge} {c : C} {cs : List C}
    {o : Option (List ℝ)} (h : RowRel R (k :: ks) (c :: cs) o) : ∃ o1 o2, R k c o1 ∧ RowRel R ks cs o2 ∧
      ((o = none ∧ o1 = none ∧ o2 = none) ∨ ∃ a b, o = some (a ++ b) ∧ o1 = some a ∧ o2 = some b ∧ a.length = (bridgeKind k).dim) := by
  cases o with
  | none => exact ⟨none, none, h.1, h.2, .inl ⟨rfl, rfl, rfl⟩⟩
  | some u =>
    obtain ⟨a, b, rfl, h0, h1, h2⟩ := h
    exact ⟨some a, some b, h1, h2, .inr ⟨a, b, rfl, rfl, rfl, h0⟩⟩

theorem row_join {C : Type} {R : Bridge → C → Option (List ℝ) → Prop} {k : Bridge} {ks : List Bridge} {c : C} {cs : List C}
    {o o1 o2 : Option (List ℝ)} (h1 : R k c o1) (h2 : RowRel R ks cs o2)
    (h : (o = none ∧ o1 = none ∧ o2 = none) ∨ ∃ a b, o = some (a ++ b) ∧ o1 = some a ∧ o2 = some b ∧ a.length = (bridgeKind k).dim) :
    RowRel R (k :: ks) (c :: cs) o := by
  rcases h with ⟨rfl, rfl, rfl⟩ | ⟨a, b, rfl, rfl, rfl, h⟩
  · exact ⟨h1, h2⟩
  · exact ⟨a, b, rfl, h, h1, h2⟩

theorem row_cons {C : Type} {R : Bridge → C → Option (List ℝ) → Prop} {k : Bridge} {ks : List Bridge} {cs : List C}
    {o : Option (List ℝ)} (h : RowRel R (k :: ks) cs o) : ∃ c cs', cs = c :: cs' := by
  cases cs with
  | nil => cases o <;> exact h.elim
  | cons c cs => exact ⟨c, cs, rfl⟩

theorem row_nil {C : Type} {R : Bridge → C → Option (List ℝ) → Prop} {cs : List C} {o : Option (List ℝ)} (h : RowRel R [] cs o) :
    cs = [] := by
  cases cs with
  | nil => rfl
  | cons c cs => cases o <;> exact h.elim

theorem row_map {C : Type} {R R' : Bridge → C → Option (List ℝ) → Prop} {g : C → C} (hg : ∀ k c o, R k c o → R' k (g c) o)
    (ks : List Bridge) (cs : List C) (o : Option (List ℝ)) (h : RowRel R ks cs o) : RowRel R' ks (cs.map g) o := by
  induction ks generalizing cs o with
  | nil =>
    obtain rfl := row_nil h
    exact h
  | cons k ks ih =>
    obtain ⟨c, cs, rfl⟩ := row_cons h
    obtain ⟨o1, o2, h1, h2, h3⟩ := row_parts h
    exact row_join (hg k c o1 h1) (ih cs o2 h2) h3

theorem late_append {k : Bridge} {ks : List Bridge} {o o1 o2 : Option (List ℝ)} {i u1 u2 : List ℝ} {a b : ℝ}
    (hi : (bridgeKind k).dim ≤ i.length) (h1 : lateLaw (star k) o1 (i.take (bridgeKind k).dim) u1 a)
    (h2 : lateLaw (stars ks) o2 (i.drop (bridgeKind k).dim) u2 b)
    (h : (o = none ∧ o1 = none ∧ o2 = none) ∨ ∃ a b, o = some (a ++ b) ∧ o1 = some a ∧ o2 = some b ∧ a.length = (bridgeKind k).dim)
    (u : List ℝ) : lateLaw (stars (k :: ks)) o i u (a + b) := by
  intro v e
  rcases h with ⟨rfl, -, -⟩ | ⟨x, y, rfl, rfl, rfl, hx⟩
  · cases e
  · cases e
    rw [h1 x rfl, h2 y rfl]
    conv_rhs => rw [← List.take_append_drop (bridgeKind k).dim i]
    rw [dot_append (by rw [hx, List.length_take, min_eq_left hi])]
    simp only [stars, List.take_append_drop]
    ring

theorem rows_set (ks : List Bridge) (cs : List (FConv ℝ)) (o : Option (List ℝ)) (as : List ℕ) (t : ℝ)
    (h : RowRel (BridgeRel HalfRest) ks cs o) (ha : List.Forall₂ (fun k a => a < (bridgeKind k).actions) ks as) :
    RowRel (BridgeRel HalfSet) ks (multiSetActionAux cs as t).1 o := by
  induction ha generalizing cs o with
  | nil =>
    obtain rfl := row_nil h
    exact h
  | cons ha has ih =>
    obtain ⟨c, cs, rfl⟩ := row_cons h
    obtain ⟨o1, o2, h1, h2, h3⟩ := row_parts h
    obtain ⟨hs, ts, e⟩ := bridge_set _ c o1 _ t h1 ha
    simp only [multiSetActionAux, e]
    exact row_join hs (ih cs o2 h2) h3

theorem rows_convert (ks : List Bridge) (cs : List (FConv ℝ)) (o : Option (List ℝ)) (i : List ℝ) (t : ℝ)
    (h : RowRel (BridgeRel HalfSet) ks cs o) (hi : i.length = lengthOf ks) :
    ∃ is u, multiISup cs i = .ok is ∧ (multiConvert cs i t).2 = .ok u ∧ lateLaw (stars ks) o i u is ∧
      RowRel (BridgeRel HalfSet) ks (multiConvert cs i t).1 (some u) := by
  induction ks generalizing cs o i with
  | nil =>
    obtain rfl := row_nil h
    refine ⟨0, [], rfl, rfl, fun v e => ?_, by simp [multiConvert, RowRel]⟩
    rw [show v = [] from h v e]
    simp [dot, stars]
  | cons k ks ih =>
    obtain ⟨c, cs, rfl⟩ := row_cons h
    obtain ⟨o1, o2, h1, h2, h3⟩ := row_parts h
    rw [lengthOf_cons] at hi
    have hd : c.dim = (bridgeKind k).dim := by rw [fKind_dim, rel_kind h1]
    obtain ⟨w1, u1, a1, b1, l1, r1, n1⟩ := bridge_convert k c o1 (i.take (bridgeKind k).dim) t h1 (by rw [List.length_take]; omega)
    obtain ⟨w2, u2, a2, b2, l2, r2⟩ := ih cs o2 (i.drop (bridgeKind k).dim) h2 (by rw [List.length_drop]; omega)
    simp only [multiISup, multiConvert, hd, a1, a2, b1, b2]
    exact ⟨_, _, rfl, rfl, late_append (by omega) l1 l2 h3 _, u1, u2, rfl, n1, r1, r2⟩

theorem multiReset_map (cs : List (FConv ℝ)) : (multiReset cs).1 = cs.map fun c => c.reset.1 := by
  induction cs with
  | nil => rfl
  | cons c cs ih => simp [multiReset, ih]

theorem fMulti_drawn (ks : List Bridge) : Drawn finiteMulti (List.Forall₂ (fun k a => a < (bridgeKind k).actions) ks)
    (fun i => i.length = lengthOf ks) (RowRel (BridgeRel HalfRest) ks) (RowRel (BridgeRel HalfSet) ks) (lateLaw (stars ks)) where
  set cs o as t h ha := rows_set ks cs o as t h ha
  conv cs o i t h hi := rows_convert ks cs o i t h hi
  keep cs o h := by
    have := row_map (g := id) bridge_keep ks cs o h
    rwa [List.map_id] at this
  reset cs o h := by
    show RowRel _ ks (multiReset cs).1 o
    rw [multiReset_map]
    exact row_map bridge_reset ks cs o h

theorem rows_new (ks : List Bridge) (tau : ℝ) : RowRel (BridgeRel HalfRest) ks (multiSetTau (ks.map newF) tau) none := by
  induction ks with
  | nil => exact fun _ h => by cases h
  | cons k ks ih => exact ⟨bridge_new k tau, ih⟩

/-! ## Continuous converters -/

/-- continuous bridges without interlocking -/
def ContRel : Bridge → CConv ℝ → Option (List ℝ) → Prop
  | .four, .four d, _ => d.sub0.WF 0 ∧ d.sub1.WF 0
  | .b6, .b6 d, _ => d.s0.WF 0 ∧ d.s1.WF 0 ∧ d.s2.WF 0
  | _, _, _ => False

theorem cont_kind {k : Bridge} {c : CConv ℝ} {o : Option (List ℝ)} (h : ContRel k c o) : cKind c = bridgeKind k := by
  cases k <;> cases c <;> first | rfl | exact h.elim

theorem cont_set (k : Bridge) (c : CConv ℝ) (o : Option (List ℝ)) (a : List ℝ) (t : ℝ) (h : ContRel k c o)
    (ha : a.length = (bridgeKind k).dim) : ContRel k (c.setAction a t).1 o ∧ ∃ ts, (c.setAction a t).2 = .ok ts := by
  have hk := cont_kind h
  cases k <;> cases c <;> simp only [cKind, bridgeKind, reduceCtorEq] at hk
  · obtain ⟨x, rfl⟩ := one_of_length ha
    exact ⟨⟨CTwo.WF.set h.1.2.2 _ t, CTwo.WF.set h.2.2.2 _ t⟩, _, rfl⟩
  · obtain ⟨x, y, z, rfl⟩ := List.length_eq_three.1 ha
    exact ⟨⟨CTwo.WF.set h.1.2.2 _ t, CTwo.WF.set h.2.1.2.2 _ t, CTwo.WF.set h.2.2.2.2 _ t⟩, _, rfl⟩

theorem cont_convert (k : Bridge) (c : CConv ℝ) (o : Option (List ℝ)) (i : List ℝ) (t : ℝ) (h : ContRel k c o)
    (hi : i.length = (bridgeKind k).dim) : ∃ is u, c.iSup i = .ok is ∧ c.convert i t = .ok u ∧ nowLaw (star k) o i u is ∧
      u.length = (bridgeKind k).dim := by
  have hk := cont_kind h
  cases k <;> cases c <;> simp only [cKind, bridgeKind, reduceCtorEq] at hk
  · rename_i d
    obtain ⟨x, rfl⟩ := one_of_length hi
    simp only [CConv.iSup, CFour.iSup, CConv.convert, CFour.convert, CTwo.convert_noil h.1, CTwo.convert_noil h.2, CTwo.iSup_noil h.1,
      CTwo.iSup_noil h.2]
    refine ⟨_, _, rfl, rfl, ?_, rfl⟩
    simp only [nowLaw, dot, star]
    ring
  · rename_i d
    obtain ⟨x, y, z, rfl⟩ := List.length_eq_three.1 hi
    simp only [CConv.iSup, CB6.iSup, sumZip, CConv.convert, CB6.convert, CTwo.convert_noil h.1, CTwo.convert_noil h.2.1,
      CTwo.convert_noil h.2.2, CTwo.iSup_noil h.1, CTwo.iSup_noil h.2.1, CTwo.iSup_noil h.2.2]
    refine ⟨_, _, rfl, rfl, ?_, rfl⟩
    simp only [nowLaw, dot, star, List.sum_cons, List.sum_nil]
    ring

theorem cont_reset (k : Bridge) (c : CConv ℝ) (o : Option (List ℝ)) (h : ContRel k c o) : ContRel k c.reset.1 o := by
  have reset : ∀ {c : CTwo ℝ}, c.WF 0 → ({ c with action := 0 } : CTwo ℝ).WF 0 := fun h => ⟨le_refl _, zero_le_one, h.2.2⟩
  have hk := cont_kind h
  cases k <;> cases c <;> simp only [cKind, bridgeKind, reduceCtorEq] at hk
  · exact ⟨reset h.1, reset h.2⟩
  · exact ⟨reset h.1, reset h.2.1, reset h.2.2⟩

theorem cont_new (k : Bridge) (tau : ℝ) : ContRel k ((newC k).setTau tau) none := by
  cases k <;> simp [ContRel, newC, CConv.setTau, CFour.new, CB6.new, CTwo.new, CTwo.WF]

theorem cont_change {k : Bridge} {c : CConv ℝ} {o : Option (List ℝ)} (h : ContRel k c o) (o' : Option (List ℝ)) : ContRel k c o' := by
  cases k <;> cases c <;> first | exact h | exact h.elim

theorem c_drawn (k : Bridge) : Drawn contPower (fun a => a.length = (bridgeKind k).dim) (fun i => i.length = (bridgeKind k).dim)
    (ContRel k) (ContRel k) (nowLaw (star k)) where
  set c o a t h ha := (cont_set k c o a t h ha).1
  conv c o i t h hi := by
    obtain ⟨is, u, h1, h2, h3, -⟩ := cont_convert k c o i t h hi
    exact ⟨is, u, h1, h2, h3, cont_change h _⟩
  keep _ _ h := h
  reset := cont_reset k

theorem cRows_set (ks : List Bridge) (cs : List (CConv ℝ)) (o : Option (List ℝ)) (a : List ℝ) (t : ℝ)
    (h : RowRel ContRel ks cs o) (ha : a.length = lengthOf ks) : RowRel ContRel ks (cMultiSetActionAux cs a t).1 o := by
  induction ks generalizing cs o a with
  | nil =>
    obtain rfl := row_nil h
    exact h
  | cons k ks ih =>
    obtain ⟨c, cs, rfl⟩ := row_cons h
    obtain ⟨o1, o2, h1, h2, h3⟩ := row_parts h
    rw [lengthOf_cons] at ha
    have hd : c.dim = (bridgeKind k).dim := by rw [cKind_dim, cont_kind h1]
    obtain ⟨hs, ts, e⟩ := cont_set k c o1 (a.take (bridgeKind k).dim) t h1 (by rw [List.length_take]; omega)
    simp only [cMultiSetActionAux, hd, e]
    exact row_join hs (ih cs o2 (a.drop (bridgeKind k).dim) h2 (by rw [List.length_drop]; omega)) h3

theorem cRows_convert (ks : List Bridge) (cs : List (CConv ℝ)) (o : Option (List ℝ)) (i : List ℝ) (t : ℝ)
    (h : RowRel ContRel ks cs o) (hi : i.length = lengthOf ks) :
    ∃ is u, cMultiISup cs i = .ok is ∧ cMultiConvert cs i t = .ok u ∧ nowLaw (stars ks) o i u is ∧ RowRel ContRel ks cs (some u) := by
  induction ks generalizing cs o i with
  | nil =>
    obtain rfl := row_nil h
    exact ⟨0, [], rfl, rfl, by simp [nowLaw, dot, stars], by simp [RowRel]⟩
  | cons k ks ih =>
    obtain ⟨c, cs, rfl⟩ := row_cons h
    obtain ⟨o1, o2, h1, h2, h3⟩ := row_parts h
    rw [lengthOf_cons] at hi
    have hd : c.dim = (bridgeKind k).dim := by rw [cKind_dim, cont_kind h1]
    obtain ⟨w1, u1, a1, b1, l1, n1⟩ := cont_convert k c o1 (i.take (bridgeKind k).dim) t h1 (by rw [List.length_take]; omega)
    obtain ⟨w2, u2, a2, b2, l2, r2⟩ := ih cs o2 (i.drop (bridgeKind k).dim) h2 (by rw [List.length_drop]; omega)
    simp only [cMultiISup, cMultiConvert, hd, a1, a2, b1, b2]
    refine ⟨_, _, rfl, rfl, ?_, u1, u2, rfl, n1, cont_change h1 _, r2⟩
    simp only [nowLaw] at l1 l2 ⊢
    rw [l1, l2]
    conv_rhs => rw [← List.take_append_drop (bridgeKind k).dim i]
    rw [dot_append (by rw [n1, List.length_take, min_eq_left (by omega)])]
    simp only [stars, List.take_append_drop]
    ring

theorem cMultiReset_map (cs : List (CConv ℝ)) : (cMultiReset cs).1 = cs.map fun c => c.reset.1 := by
  induction cs with
  | nil => rfl
  | cons c cs ih => simp [cMultiReset, ih]

theorem cMulti_drawn (ks : List Bridge) : Drawn contMulti (fun a => a.length = lengthOf ks)
    (fun i => i.length = lengthOf ks) (RowRel ContRel ks) (RowRel ContRel ks) (nowLaw (stars ks)) where
  set cs o a t h ha := cRows_set ks cs o a t h ha
  conv cs o i t h hi := cRows_convert ks cs o i t h hi
  keep _ _ h := h
  reset cs o h := by
    show RowRel _ ks (cMultiReset cs).1 o
    rw [cMultiReset_map]
    exact row_map cont_reset ks cs o h

theorem cRows_new (ks : List Bridge) (tau : ℝ) : RowRel ContRel ks (cMultiSetTau (ks.map newC) tau) none := by
  induction ks with
  | nil => exact fun _ h => by cases h
  | cons k ks ih => exact ⟨cont_new k tau, ih⟩

/-! ## The motors -/

theorem drive_currents {t : MotorType} {D : Drive} (hD : Drives t D) (A : Type) (y : D.Y) (hy : D.shape y) :
    ((D.frame A).iIn y).length = lengthOf (bridgesOf (converterOf t)) ∧ stars (bridgesOf (converterOf t)) ((D.frame A).iIn y) = 0 := by
  have three : ∀ v : Fin 2 → ℝ, 1 / 2 * (l3 (t32 v)).sum = 0 := by
    intro v
    have := c32_t32_zero_sum v
    simp only [l3, List.sum_cons, List.sum_nil]
    linarith
  cases hD with
  | permExDc tq | seriesDc tq =>
    obtain ⟨m, q⟩ := y
    obtain ⟨i, rfl⟩ := List.length_eq_one_iff.1 hy.2
    exact ⟨rfl, by simp [converterOf, bridgesOf, stars, star]⟩
  | shuntDc tq => exact ⟨rfl, by simp [converterOf, bridgesOf, stars, star]⟩
  | extExDc tq =>
    obtain ⟨m, q⟩ := y
    obtain ⟨i, j, rfl⟩ := List.length_eq_two.1 hy.2
    exact ⟨rfl, by simp [converterOf, bridgesOf, stars, star]⟩
  | pmsm tq | synRm tq => exact ⟨rfl, by rw [← three (q y.i y.eps)]; exact add_zero _⟩
  | scim tq => exact ⟨rfl, by rw [← three y.i]; exact add_zero _⟩
  | dfim lm lsigr tq =>
    refine ⟨rfl, ?_⟩
    show 1 / 2 * (l3 (t32 y.i)).sum + (1 / 2 * (l3 (t32 (rotorCurrent lm lsigr y))).sum + 0) = 0
    rw [three, three, add_zero, add_zero]
  | eesm tq =>
    refine ⟨rfl, ?_⟩
    show 1 / 2 * (l3 (t32 (q y.i y.eps))).sum + (0 + 0) = 0
    rw [three, add_zero, add_zero]

theorem drive_action {t : MotorType} {D : Drive} (hD : Drives t D) (A : Type) (y : D.Y) (a : A) : (D.frame A).action y a = a := by
  cases hD <;> rfl

theorem stars_one (k : Bridge) {i : List ℝ} (hi : i.length = (bridgeKind k).dim) : stars [k] i = star k i := by
  simp only [stars, add_zero]
  rw [List.take_of_length_le hi.le]

theorem lengthOf_one (k : Bridge) : lengthOf [k] = (bridgeKind k).dim := by simp [lengthOf, dims]

/-- The current that the converter draws with the outputs since the last request. -/
def Passed : Option (List ℝ) → List ℝ → List ℝ → ℝ → Prop := fun o i _ is => ∀ v, o = some v → is = dot v i

/-- The current that the converter is going to draw with its next outputs. -/
def Coming : Option (List ℝ) → List ℝ → List ℝ → ℝ → Prop := fun _ i u is => is = dot u i

/-- currents without a share of the star point -/
def Balanced (ks : List Bridge) (i : List ℝ) : Prop := i.length = lengthOf ks ∧ stars ks i = 0

theorem powered_late {tau : ℝ} {arg : ConvArg} {A C : Type} {pw : Power A C} {c : C} {space : A → Prop}
    (hp : Powered tau .finite arg A C pw c space) :
    ∃ rel armed, Drawn pw space (Balanced (bridgesOf arg)) rel armed Passed ∧ rel c none := by
  cases hp with
  | finite k =>
    refine ⟨_, _, ⟨(f_drawn k).set, fun c o i t h hi => ?_, (f_drawn k).keep, (f_drawn k).reset⟩, bridge_new k tau⟩
    have hl : i.length = (bridgeKind k).dim := hi.1.trans (lengthOf_one k)
    obtain ⟨is, u, h1, h2, h3, h4⟩ := (f_drawn k).conv c o i t h hl
    refine ⟨is, u, h1, h2, fun v e => ?_, h4⟩
    rw [h3 v e, ← stars_one k hl, show stars [k] i = 0 from hi.2, add_zero]
  | finiteMulti ks =>
    refine ⟨_, _, ⟨(fMulti_drawn ks).set, fun c o i t h hi => ?_, (fMulti_drawn ks).keep, (fMulti_drawn ks).reset⟩, rows_new ks tau⟩
    obtain ⟨is, u, h1, h2, h3, h4⟩ := (fMulti_drawn ks).conv c o i t h hi.1
    refine ⟨is, u, h1, h2, fun v e => ?_, h4⟩
    rw [h3 v e, show stars ks i = 0 from hi.2, add_zero]

theorem powered_now {tau : ℝ} {arg : ConvArg} {A C : Type} {pw : Power A C} {c : C} {space : A → Prop}
    (hp : Powered tau .continuous arg A C pw c space) :
    ∃ rel armed, Drawn pw space (Balanced (bridgesOf arg)) rel armed Coming ∧ rel c none := by
  cases hp with
  | continuous k =>
    refine ⟨_, _, ⟨(c_drawn k).set, fun c o i t h hi => ?_, (c_drawn k).keep, (c_drawn k).reset⟩, cont_new k tau⟩
    have hl : i.length = (bridgeKind k).dim := hi.1.trans (lengthOf_one k)
    obtain ⟨is, u, h1, h2, h3, h4⟩ := (c_drawn k).conv c o i t h hl
    refine ⟨is, u, h1, h2, ?_, h4⟩
    show is = dot u i
    rw [show is = dot u i + star k i from h3, ← stars_one k hl, show stars [k] i = 0 from hi.2, add_zero]
  | contMulti ks =>
    refine ⟨_, _, ⟨(cMulti_drawn ks).set, fun c o i t h hi => ?_, (cMulti_drawn ks).keep, (cMulti_drawn ks).reset⟩, cRows_new ks tau⟩
    obtain ⟨is, u, h1, h2, h3, h4⟩ := (cMulti_drawn ks).conv c o i t h hi.1
    refine ⟨is, u, h1, h2, ?_, h4⟩
    show is = dot u i
    rw [show is = dot u i + stars ks i from h3, show stars ks i = 0 from hi.2, add_zero]

/-! ## Theorems -/

section theorems

variable {t : MotorType} {D : Drive} {A C S P : Type} {pw : Power A C} {conv : C} {space : A → Prop} {tau : ℝ} {limits : List ℝ}

/-- C119 for the environments with finite control sets and any solver, supply and load (with the speed as its only state): the current
handed to the supply is always the power, relative to the supply voltage, at the outputs since the request before, for the currents now. -/
theorem c119_finite_partial (hD : Drives t D) (hp : Powered tau .finite (converterOf t) A C pw conv space)
    (p : Parts ℝ D.Y D.U A S C P) (hu : Uses p pw) (hs : Shaped p D.shape) :
    AlwaysBooked p (D.frame A) D.rep tau limits conv D.shape space Passed := by
  obtain ⟨rel, armed, hd, hc⟩ := powered_late hp
  exact always_booked hu hs hd (drive_currents hD A) (drive_action hD A) hc

/-- The environments with continuous control sets hand the current of the coming interval to the supply. -/
theorem c119_continuous (hD : Drives t D) (hp : Powered tau .continuous (converterOf t) A C pw conv space)
    (p : Parts ℝ D.Y D.U A S C P) (hu : Uses p pw) (hs : Shaped p D.shape) :
    AlwaysBooked p (D.frame A) D.rep tau limits conv D.shape space Coming := by
  obtain ⟨rel, armed, hd, hc⟩ := powered_now hp
  exact always_booked hu hs hd (drive_currents hD A) (drive_action hD A) hc

end theorems

/-! ### The times of the requests -/

section times

variable {Y U A S C P : Type} (p : Parts ℝ Y U A S C P) (f : Frame ℝ Y U A) (rep : Y → List ℝ → List ℝ → Except Err (List ℝ)) (tau : ℝ)
  (limits : List ℝ)

theorem piece_times (toU : Y → List ℝ → Except Err U) (st : St ℝ S (C × List (List ℝ × List ℝ)) (P × List (ℝ × ℝ))) (t : ℝ) :
    (piece (spied p) f toU st t).1.t = st.t ∧
    ∃ new, (piece (spied p) f toU st t).1.supply.2 = new ++ st.supply.2 ∧ ∀ x ∈ new, x.1 = st.t := by
  unfold piece
  dsimp only
  split
  · exact ⟨rfl, [], rfl, by simp⟩
  · rename_i is _
    split
    · exact ⟨rfl, [(st.t, is)], rfl, by simp⟩
    · split
      · exact ⟨rfl, [(st.t, is)], rfl, by simp⟩
      · exact ⟨rfl, [(st.t, is)], rfl, by simp⟩

theorem pieces_times (ts : List ℝ) (st : St ℝ S (C × List (List ℝ × List ℝ)) (P × List (ℝ × ℝ))) :
    (pieces (spied p) f ts st).1.t = st.t ∧
    ∃ new, (pieces (spied p) f ts st).1.supply.2 = new ++ st.supply.2 ∧ ∀ x ∈ new, x.1 = st.t := by
  induction ts generalizing st with
  | nil => exact ⟨rfl, [], rfl, by simp⟩
  | cons t ts ih =>
    obtain ⟨h1, new, h2, h3⟩ := piece_times p f f.loopU st t
    simp only [pieces]
    generalize piece (spied p) f f.loopU st t = R at h1 h2
    obtain ⟨s1, r1⟩ := R
    cases r1 with
    | error e => exact ⟨h1, new, h2, h3⟩
    | ok x =>
      obtain ⟨k1, new', k2, k3⟩ := ih s1
      dsimp only at h1 h2
      refine ⟨k1.trans h1, new' ++ new, ?_, fun x hx => ?_⟩
      · rw [List.append_assoc, ← h2]; exact k2
      · rcases List.mem_append.1 hx with hx | hx
        · exact (k3 x hx).trans h1
        · exact h3 x hx

/-- All requests of a step are for the time at which it begins. -/
theorem c119_times (st : St ℝ S (C × List (List ℝ × List ℝ)) (P × List (ℝ × ℝ))) (a : A) :
    ∃ new, (simulate (spied p) f tau limits st a).1.supply.2 = new ++ st.supply.2 ∧ ∀ x ∈ new, x.1 = st.t := by
  rw [simulate_eq]
  cases ((spied p).setAction st.conv (f.action ((spied p).solverY st.solver) a) st.t).2 with
  | error e => exact ⟨[], rfl, by simp⟩
  | ok times =>
    dsimp only
    obtain ⟨h1, new, h2, h3⟩ := pieces_times p f times.dropLast
      { st with conv := ((spied p).setAction st.conv (f.action ((spied p).solverY st.solver) a) st.t).1 }
    generalize pieces (spied p) f times.dropLast
      { st with conv := ((spied p).setAction st.conv (f.action ((spied p).solverY st.solver) a) st.t).1 } = R at h1 h2
    obtain ⟨s1, r1⟩ := R
    cases r1 with
    | error e => exact ⟨new, h2, h3⟩
    | ok x =>
      simp only [Call.bind]
      obtain ⟨-, new', k2, k3⟩ := piece_times p f f.lastU s1 (s1.t + tau)
      dsimp only at h1 h2
      generalize piece (spied p) f f.lastU s1 (s1.t + tau) = R at k2
      obtain ⟨s2, r2⟩ := R
      have : ∃ new, s2.supply.2 = new ++ st.supply.2 ∧ ∀ x ∈ new, x.1 = st.t := by
        refine ⟨new' ++ new, ?_, fun x hx => ?_⟩
        · rw [List.append_assoc, ← h2]; exact k2
        · rcases List.mem_append.1 hx with hx | hx
          · exact (k3 x hx).trans h1
          · exact h3 x hx
      cases r2 with
      | error e => exact this
      | ok uv => exact this

/-- The first requests of an episode are for time 0. -/
theorem c119_start (st : St ℝ S (C × List (List ℝ × List ℝ)) (P × List (ℝ × ℝ))) (y : Y) (a : A) :
    ∃ new, (simulate (spied p) f tau limits (reset (spied p) rep limits st y).1 a).1.supply.2 = new ++ st.supply.2 ∧
      ∀ x ∈ new, x.1 = 0 :=
  c119_times p f tau limits (reset (spied p) rep limits st y).1 a

/-- What an RC supply makes of the current: the charge of the capacitor changes by the current through the resistor minus the current of
the request, for the time since the last request. -/
theorem c119_charge (s : Supply.RC ℝ) (hr : s.r ≠ 0) (hc : s.c ≠ 0) (t is : ℝ) :
    s.c * ((s.getVoltage t is).2 - s.solver.y) = (t - s.solver.t) * ((s.u0 - s.solver.y) / s.r - is) ∧
    (s.getVoltage t is).1.solver.t = t ∧ (s.getVoltage t is).1.solver.y = (s.getVoltage t is).2 ∧
    (s.reset.1.getVoltage 0 is).2 = s.u0 := by
  refine ⟨?_, rfl, rfl, ?_⟩
  · simp only [Supply.RC.getVoltage, Solver.Euler.integrateOneStep, Supply.RC.rhs, smul_eq_mul]
    field_simp
    ring
  · simp [Supply.RC.getVoltage, Supply.RC.reset, Solver.Euler.integrateOneStep, Solver.Euler.setInitialValue]

end times

/-! ### Continuous converters pay too early -/

/-- outputs of the continuous bridges for actions in their action space -/
def outOf : Bridge → List ℝ → List ℝ
  | .four, a => a
  | .b6, a => a.map (· / 2)

def outsOf : List Bridge → List ℝ → List ℝ
  | [], _ => []
  | k :: ks, a => outOf k (a.take (bridgeKind k).dim) ++ outsOf ks (a.drop (bridgeKind k).dim)

/-- continuous bridges with the default sampling time -/
def Timed : Bridge → CConv ℝ → Prop
  | .four, .four d => d.sub0.WF 0 ∧ d.sub1.WF 0 ∧ d.sub0.tau = 1 / 10000 ∧ d.sub1.tau = 1 / 10000
  | .b6, .b6 d => (d.s0.WF 0 ∧ d.s1.WF 0 ∧ d.s2.WF 0) ∧ d.s0.tau = 1 / 10000 ∧ d.s1.tau = 1 / 10000 ∧ d.s2.tau = 1 / 10000
  | _, _ => False

theorem timed_kind {k : Bridge} {c : CConv ℝ} (h : Timed k c) : cKind c = bridgeKind k := by
  cases k <;> cases c <;> first | rfl | exact h.elim

theorem timed_rel {k : Bridge} {c : CConv ℝ} (h : Timed k c) (o : Option (List ℝ)) : ContRel k c o := by
  cases k <;> cases c <;> first | exact h.elim | exact ⟨h.1, h.2.1⟩ | exact h.1

theorem clip_up {x : ℝ} (h : |x| ≤ 1) : clip (1 / 2 * (x + 1)) 0 1 = 1 / 2 * (x + 1) :=
  clip_of_mem (by linarith [(abs_le.1 h).1]) (by linarith [(abs_le.1 h).2])

theorem clip_down {x : ℝ} (h : |x| ≤ 1) : clip (-(1 / 2) * (x - 1)) 0 1 = -(1 / 2) * (x - 1) :=
  clip_of_mem (by linarith [(abs_le.1 h).2]) (by linarith [(abs_le.1 h).1])

theorem timed_set (k : Bridge) (c : CConv ℝ) (h : Timed k c) (a : List ℝ) (t : ℝ) (hl : a.length = (bridgeKind k).dim)
    (ha : ∀ x ∈ a, |x| ≤ 1) : ∃ c', c.setAction a t = (c', .ok [t + 1 / 10000]) ∧ Timed k c' ∧
      ∀ i t', i.length = (bridgeKind k).dim → c'.convert i t' = .ok (outOf k a) := by
  have hk := timed_kind h
  cases k <;> cases c <;> simp only [cKind, bridgeKind, reduceCtorEq] at hk
  · rename_i d
    obtain ⟨x, rfl⟩ := one_of_length hl
    obtain ⟨h1, h2, h3, h4⟩ := h
    have hx := ha x (by simp)
    have w1 := CTwo.WF.set h1.2.2 (1 / 2 * (x + 1)) t
    have w2 := CTwo.WF.set h2.2.2 (-(1 / 2) * (x - 1)) t
    refine ⟨.four ⟨d.tau, (d.sub0.setAction [1 / 2 * (x + 1)] t).1, (d.sub1.setAction [-(1 / 2) * (x - 1)] t).1⟩, ?_,
      ⟨w1, w2, h3, h4⟩, fun i t' hi => ?_⟩
    · simp [CConv.setAction, CFour.setAction, h3, h4, sortedSet]
    · obtain ⟨y, rfl⟩ := one_of_length hi
      simp only [CConv.convert, CFour.convert, CTwo.convert_noil w1, CTwo.convert_noil w2]
      simp only [CTwo.setAction, clip_up hx, clip_down hx, outOf]
      congr 2
      ring
  · rename_i d
    obtain ⟨x, y, z, rfl⟩ := List.length_eq_three.1 hl
    obtain ⟨⟨h1, h2, h3⟩, h4, h5, h6⟩ := h
    have hx := ha x (by simp)
    have hy := ha y (by simp)
    have hz := ha z (by simp)
    have w1 := CTwo.WF.set h1.2.2 (1 / 2 * (x + 1)) t
    have w2 := CTwo.WF.set h2.2.2 (1 / 2 * (y + 1)) t
    have w3 := CTwo.WF.set h3.2.2 (1 / 2 * (z + 1)) t
    refine ⟨.b6 ⟨d.tau, (d.s0.setAction [1 / 2 * (x + 1)] t).1, (d.s1.setAction [1 / 2 * (y + 1)] t).1,
      (d.s2.setAction [1 / 2 * (z + 1)] t).1⟩, ?_, ⟨⟨w1, w2, w3⟩, h4, h5, h6⟩, fun i t' hi => ?_⟩
    · simp [CConv.setAction, CB6.setAction, h4, h5, h6, sortedSet]
    · obtain ⟨i, j, k, rfl⟩ := List.length_eq_three.1 hi
      simp only [CConv.convert, CB6.convert, CTwo.convert_noil w1, CTwo.convert_noil w2, CTwo.convert_noil w3]
      simp only [CTwo.setAction, clip_up hx, clip_up hy, clip_up hz, outOf, List.map_cons, List.map_nil]
      congr 2
      · ring
      · congr 1
        · ring
        · congr 1
          ring

theorem timed_new (k : Bridge) (tau : ℝ) : Timed k ((newC k).setTau tau) := by
  cases k <;> simp [Timed, newC, CConv.setTau, CFour.new, CB6.new, CTwo.new, CTwo.WF]

theorem timed_reset (k : Bridge) (c : CConv ℝ) (h : Timed k c) : Timed k c.reset.1 := by
  have reset : ∀ {c : CTwo ℝ}, c.WF 0 → ({ c with action := 0 } : CTwo ℝ).WF 0 := fun h => ⟨le_refl _, zero_le_one, h.2.2⟩
  have hk := timed_kind h
  cases k <;> cases c <;> simp only [cKind, bridgeKind, reduceCtorEq] at hk
  · exact ⟨reset h.1, reset h.2.1, h.2.2⟩
  · exact ⟨⟨reset h.1.1, reset h.1.2.1, reset h.1.2.2⟩, h.2⟩

/-- Converters that switch at the end of a step only and have these outputs. -/
structure Fed {A C : Type} (pw : Power A C) (inv : C → Prop) (ks : List Bridge) (toA : List ℝ → A) : Prop where
  set : ∀ c a t, inv c → a.length = lengthOf ks → (∀ x ∈ a, |x| ≤ 1) → ∃ c' T, pw.setAction c (toA a) t = (c', .ok [T]) ∧ inv c' ∧
    ∀ i t', i.length = lengthOf ks → pw.convert c' i t' = (c', .ok (outsOf ks a)) ∧ pw.iSup c' i = .ok (dot (outsOf ks a) i + stars ks i)
  reset : ∀ c, inv c → inv (pw.reset c).1

theorem c_fed (k : Bridge) : Fed contPower (Timed k) [k] id where
  set c a t h hl ha := by
    rw [lengthOf_one] at hl
    obtain ⟨c', e, h', hout⟩ := timed_set k c h a t hl ha
    refine ⟨c', _, e, h', fun i t' hi => ?_⟩
    rw [lengthOf_one] at hi
    obtain ⟨is, u, e1, e2, e3, -⟩ := cont_convert k c' none i t' (timed_rel h' _) hi
    rw [hout i t' hi] at e2
    have : outsOf [k] a = outOf k a := by simp only [outsOf, List.append_nil]; rw [List.take_of_length_le hl.le]
    rw [this]
    cases e2
    refine ⟨by simp only [contPower]; rw [hout i t' hi], ?_⟩
    rw [stars_one k hi]
    show c'.iSup i = _
    rw [e1, show is = _ from e3]
  reset := timed_reset k

theorem rows_fed (ks : List Bridge) (cs : List (CConv ℝ)) (h : List.Forall₂ Timed ks cs) (a : List ℝ) (t : ℝ)
    (hl : a.length = lengthOf ks) (ha : ∀ x ∈ a, |x| ≤ 1) : ∃ cs' ts, cMultiSetActionAux cs a t = (cs', .ok ts) ∧
      (∀ x ∈ ts, x = t + 1 / 10000) ∧ (ks ≠ [] → ts ≠ []) ∧ List.Forall₂ Timed ks cs' ∧
      ∀ i t', i.length = lengthOf ks → cMultiConvert cs' i t' = .ok (outsOf ks a) ∧
        cMultiISup cs' i = .ok (dot (outsOf ks a) i + stars ks i) := by
  induction h generalizing a with
  | nil => exact ⟨[], [], rfl, by simp, by simp, .nil, fun i t' hi => ⟨rfl, by simp [cMultiISup, outsOf, dot, stars]⟩⟩
  | @cons k c ks cs h hs ih =>
    rw [lengthOf_cons] at hl
    have hd : c.dim = (bridgeKind k).dim := by rw [cKind_dim, timed_kind h]
    obtain ⟨c', e, h', hout⟩ := timed_set k c h (a.take (bridgeKind k).dim) t (by rw [List.length_take]; omega)
      fun x hx => ha x (List.mem_of_mem_take hx)
    obtain ⟨cs', ts, es, h1, -, h2, hs'⟩ := ih (a.drop (bridgeKind k).dim) (by rw [List.length_drop]; omega)
      fun x hx => ha x (List.mem_of_mem_drop hx)
    have hd' : c'.dim = (bridgeKind k).dim := by rw [cKind_dim, timed_kind h']
    refine ⟨c' :: cs', [t + 1 / 10000] ++ ts, by simp only [cMultiSetActionAux, hd, e, es], ?_, by simp, .cons h' h2, fun i t' hi => ?_⟩
    · intro x hx
      rcases List.mem_append.1 hx with hx | hx
      · simpa using hx
      · exact h1 x hx
    · rw [lengthOf_cons] at hi
      have hi1 : (i.take (bridgeKind k).dim).length = (bridgeKind k).dim := by rw [List.length_take]; omega
      obtain ⟨s1, s2⟩ := hs' (i.drop (bridgeKind k).dim) t' (by rw [List.length_drop]; omega)
      obtain ⟨is, u, e1, e2, e3, n1⟩ := cont_convert k c' none (i.take (bridgeKind k).dim) t' (timed_rel h' _) hi1
      have e4 := hout (i.take (bridgeKind k).dim) t' hi1
      rw [e4] at e2
      cases e2
      refine ⟨by simp only [cMultiConvert, hd', e4, s1, outsOf], ?_⟩
      simp only [cMultiISup, hd', e1, s2, outsOf]
      rw [show is = _ from e3]
      congr 1
      conv_rhs => rw [← List.take_append_drop (bridgeKind k).dim i]
      rw [dot_append (by rw [n1, hi1])]
      simp only [stars, List.take_append_drop]
      ring

theorem cMulti_fed (ks : List Bridge) (hk : ks ≠ []) : Fed contMulti (List.Forall₂ Timed ks) ks id where
  set c a t h hl ha := by
    obtain ⟨cs', ts, e, h1, h2, h3, h4⟩ := rows_fed ks c h a t hl ha
    refine ⟨cs', t + 1 / 10000, ?_, h3, fun i t' hi => ⟨?_, (h4 i t' hi).2⟩⟩
    · show cMultiSetAction c a t = _
      simp only [cMultiSetAction, e, sortedSet_all (h2 hk) h1]
    · show (cs', cMultiConvert cs' i t') = _
      rw [(h4 i t' hi).1]
  reset c h := by
    show List.Forall₂ Timed ks (cMultiReset c).1
    rw [cMultiReset_map]
    clear hk
    induction h with
    | nil => exact .nil
    | cons h _ ih => exact .cons (timed_reset _ _ h) ih

theorem powered_fed {tau : ℝ} {arg : ConvArg} {A C : Type} {pw : Power A C} {c : C} {space box : A → Prop}
    (hp : Powered tau .continuous arg A C pw c space) (hb : Boxed .continuous arg A box) (hk : bridgesOf arg ≠ []) :
    ∃ inv toA, Fed pw inv (bridgesOf arg) toA ∧ inv c ∧
      ∀ a : List ℝ, a.length = lengthOf (bridgesOf arg) → (∀ x ∈ a, |x| ≤ 1) → box (toA a) := by
  cases hp with
  | continuous k =>
    cases hb
    exact ⟨_, id, c_fed k, timed_new k tau, fun a h1 h2 => ⟨h1.trans (lengthOf_one k), h2⟩⟩
  | contMulti ks =>
    cases hb
    refine ⟨_, id, cMulti_fed ks hk, ?_, fun a h1 h2 => ⟨h1, h2⟩⟩
    clear hk
    induction ks with
    | nil => exact .nil
    | cons k ks ih => exact .cons (timed_new k tau) ih

theorem fed_step {Y U A S C P : Type} {p : Parts ℝ Y U A S C P} {f : Frame ℝ Y U A} {tau : ℝ} {limits : List ℝ} {pw : Power A C}
    {inv : C → Prop} {ks : List Bridge} {toA : List ℝ → A} (hf : Fed pw inv ks toA) (hu : Uses p pw) (hact : ∀ y a, f.action y a = a)
    (st : St ℝ S (C × List (List ℝ × List ℝ)) (P × List (ℝ × ℝ))) (hc : inv st.conv.1) {shape : Y → Prop} (hs : Shaped p shape)
    (hy : shape (p.solverY st.solver)) (hi : (f.iIn (p.solverY st.solver)).length = lengthOf ks) {a : List ℝ} (hl : a.length = lengthOf ks) (ha : ∀ x ∈ a, |x| ≤ 1) :
    shape (p.solverY (simulate (spied p) f tau limits st (toA a)).1.solver) ∧
    inv (simulate (spied p) f tau limits st (toA a)).1.conv.1 ∧
    (simulate (spied p) f tau limits st (toA a)).1.supply.2
      = (st.t, dot (outsOf ks a) (f.iIn (p.solverY st.solver)) + stars ks (f.iIn (p.solverY st.solver))) :: st.supply.2 ∧
    (simulate (spied p) f tau limits st (toA a)).1.conv.2 = (f.iIn (p.solverY st.solver), outsOf ks a) :: st.conv.2 := by
  obtain ⟨u1, u2, u3, -⟩ := hu
  obtain ⟨c', T, e1, h', e2⟩ := hf.set st.conv.1 a st.t hc hl ha
  obtain ⟨e3, e4⟩ := e2 (f.iIn (p.solverY st.solver)) (p.solverT st.solver) hi
  rw [← u1] at e1
  rw [← u2] at e3
  rw [← u3] at e4
  rw [simulate_eq, hact]
  rw [show (spied p).setAction st.conv (toA a) st.t = ((c', st.conv.2), .ok [T]) by simp [spied, e1]]
  simp only [List.dropLast_singleton, pieces, Call.bind]
  have : ∀ (s : St ℝ S (C × List (List ℝ × List ℝ)) (P × List (ℝ × ℝ))), s = { st with conv := (c', st.conv.2) } → ∀ t,
      shape (p.solverY (piece (spied p) f f.lastU s t).1.solver) ∧
      (piece (spied p) f f.lastU s t).1.conv = (c', (f.iIn (p.solverY st.solver), outsOf ks a) :: st.conv.2) ∧
      (piece (spied p) f f.lastU s t).1.supply.2 =
        (st.t, dot (outsOf ks a) (f.iIn (p.solverY st.solver)) + stars ks (f.iIn (p.solverY st.solver))) :: st.supply.2 := by
    rintro s rfl t
    unfold piece
    simp only [spied, e3, e4]
    split
    · exact ⟨hy, rfl, rfl⟩
    · exact ⟨hs.integrate _ _ _ hy, rfl, rfl⟩
  obtain ⟨h0, h1, h2⟩ := this _ rfl (st.t + tau)
  generalize piece (spied p) f f.lastU { st with conv := (c', st.conv.2) } (st.t + tau) = R at h0 h1 h2
  obtain ⟨s2, r2⟩ := R
  cases r2 with
  | error e => exact ⟨h0, by rw [h1]; exact h', h2, by rw [h1]⟩
  | ok uv => exact ⟨h0, by dsimp only; rw [h1]; exact h', h2, by dsimp only; rw [h1]⟩

theorem dot_zero (ks : List Bridge) (n : ℕ) (i : List ℝ) : dot (outsOf ks (List.replicate n 0)) i = 0 := by
  have key : ∀ l : List ℝ, (∀ x ∈ l, x = 0) → ∀ i, dot l i = 0 := by
    intro l
    induction l with
    | nil => intro _ i; simp [dot]
    | cons x l ih =>
      intro h i
      cases i with
      | nil => simp [dot]
      | cons y i => simp [dot, h x (by simp), ih (fun z hz => h z (by simp [hz]))]
  refine key _ ?_ i
  induction ks generalizing n with
  | nil => simp [outsOf]
  | cons k ks ih =>
    intro x hx
    simp only [outsOf, List.take_replicate, List.drop_replicate, List.mem_append] at hx
    rcases hx with hx | hx
    · cases k
      · exact (List.mem_replicate.1 hx).2
      · simp only [outOf, List.map_replicate, zero_div] at hx
        exact (List.mem_replicate.1 hx).2
    · exact ih _ x hx

theorem dot_self (ks : List Bridge) (i : List ℝ) (hi : i.length = lengthOf ks) {e : ℝ} (he : 0 ≤ e) :
    e / 2 * (i.map (· ^ 2)).sum ≤ dot (outsOf ks (i.map (e * ·))) i := by
  have one : ∀ i : List ℝ, e / 2 * (i.map (· ^ 2)).sum ≤ dot (i.map (e * ·)) i ∧
      dot ((i.map (e * ·)).map (· / 2)) i = e / 2 * (i.map (· ^ 2)).sum := by
    intro i
    induction i with
    | nil => simp [dot]
    | cons x i ih =>
      simp only [List.map_cons, List.sum_cons, dot]
      refine ⟨?_, ?_⟩
      · nlinarith [ih.1, mul_nonneg he (sq_nonneg x)]
      · rw [ih.2]; ring
  induction ks generalizing i with
  | nil =>
    obtain rfl : i = [] := List.length_eq_zero_iff.1 (by simpa [lengthOf, dims] using hi)
    simp [dot, outsOf]
  | cons k ks ih =>
    rw [lengthOf_cons] at hi
    have h1 : (i.take (bridgeKind k).dim).length = (bridgeKind k).dim := by rw [List.length_take]; omega
    have h2 := ih (i.drop (bridgeKind k).dim) (by rw [List.length_drop]; omega)
    have h3 := one (i.take (bridgeKind k).dim)
    have e1 : dot (outsOf (k :: ks) (i.map (e * ·))) i = dot (outOf k ((i.take (bridgeKind k).dim).map (e * ·))) (i.take (bridgeKind k).dim)
        + dot (outsOf ks ((i.drop (bridgeKind k).dim).map (e * ·))) (i.drop (bridgeKind k).dim) := by
      conv_lhs => rw [← List.take_append_drop (bridgeKind k).dim i]
      simp only [outsOf, List.map_append]
      rw [List.take_left' (by simpa using h1), List.drop_left' (by simpa using h1)]
      exact dot_append (by cases k <;> simp [outOf])
    have e2 : (i.map (· ^ 2)).sum = ((i.take (bridgeKind k).dim).map (· ^ 2)).sum + ((i.drop (bridgeKind k).dim).map (· ^ 2)).sum := by
      conv_lhs => rw [← List.take_append_drop (bridgeKind k).dim i]
      rw [List.map_append, List.sum_append]
    rw [e1, e2, mul_add]
    refine add_le_add ?_ h2
    cases k
    · exact h3.1
    · exact h3.2.ge

theorem sq_sum_pos {i : List ℝ} {x : ℝ} (hx : x ∈ i) (h0 : x ≠ 0) : 0 < (i.map (· ^ 2)).sum := by
  induction i with
  | nil => simp at hx
  | cons y i ih =>
    have hn : 0 ≤ (i.map (· ^ 2)).sum := List.sum_nonneg (by simp; intros; positivity)
    simp only [List.map_cons, List.sum_cons]
    rcases List.mem_cons.1 hx with rfl | hx
    · have : 0 < x ^ 2 := by positivity
      linarith
    · have := ih hx
      positivity

theorem abs_le_sum {i : List ℝ} {x : ℝ} (hx : x ∈ i) : |x| ≤ (i.map (|·|)).sum :=
  List.single_le_sum (by simp) _ (List.mem_map_of_mem hx)

/-- C119 fails for the environments with continuous control sets: take any components and any start, and a first action without voltage,
so that nothing is drawn from the supply.  Whenever there is a current afterwards, there is an action with which the supply is charged
with a positive current for this interval. -/
theorem c119_violated {t : MotorType} {D : Drive} {A C S P : Type} {pw : Power A C} {conv : C} {space box : A → Prop} {tau : ℝ}
    {limits : List ℝ} (hD : Drives t D) (hp : Powered tau .continuous (converterOf t) A C pw conv space)
    (hb : Boxed .continuous (converterOf t) A box) (p : Parts ℝ D.Y D.U A S C P) (hu : Uses p pw) (hs : Shaped p D.shape)
    (st : St ℝ S C P) (hst : st.conv = conv) (y : D.Y) (hy : D.shape y) :
    ∃ a, box a ∧ ∀ x ∈ (D.frame A).iIn (p.solverY (after (spied p) (D.frame A) D.rep tau limits (blank st) [.inl y, .inr a]).solver),
      x ≠ 0 → ∃ b, box b ∧ ∃ t₁ t₂ w is i j u v,
        (after (spied p) (D.frame A) D.rep tau limits (blank st) [.inl y, .inr a, .inr b]).supply.2 = [(t₂, is), (t₁, w)] ∧
        (after (spied p) (D.frame A) D.rep tau limits (blank st) [.inl y, .inr a, .inr b]).conv.2 = [(i, u), (j, v)] ∧
        w = 0 ∧ dot v i = 0 ∧ 0 < is := by
  obtain ⟨inv, toA, hf, hc, hbox⟩ := powered_fed hp hb (by cases t <;> simp [converterOf, bridgesOf])
  set ks := bridgesOf (converterOf t)
  have hact := drive_action hD A
  have hz : (List.replicate (lengthOf ks) (0 : ℝ)).length = lengthOf ks := List.length_replicate
  have hz' : ∀ x ∈ List.replicate (lengthOf ks) (0 : ℝ), |x| ≤ 1 := by
    intro x hx
    rw [(List.mem_replicate.1 hx).2]
    simp
  refine ⟨toA (List.replicate (lengthOf ks) 0), hbox _ hz hz', ?_⟩
  simp only [after]
  have hr : inv (reset (spied p) D.rep limits (blank st) y).1.conv.1 := by
    show inv (p.convReset st.conv).1
    rw [hu.2.2.2, hst]
    exact hf.reset _ hc
  have hy0 : D.shape (p.solverY (reset (spied p) D.rep limits (blank st) y).1.solver) := hs.initial _ _ _ hy
  obtain ⟨g1, g2⟩ := drive_currents hD A _ hy0
  obtain ⟨hy1, c1, s1, v1⟩ := fed_step (tau := tau) (limits := limits) hf hu hact (reset (spied p) D.rep limits (blank st) y).1 hr hs hy0 g1 hz hz'
  generalize simulate (spied p) (D.frame A) tau limits (reset (spied p) D.rep limits (blank st) y).1
      (toA (List.replicate (lengthOf ks) 0)) = R at *
  obtain ⟨st1, r1⟩ := R
  dsimp only at *
  intro x hx h0
  obtain ⟨k1, k2⟩ := drive_currents hD A _ hy1
  generalize hI : (D.frame A).iIn (p.solverY st1.solver) = i at *
  have hsum : 0 ≤ (i.map (|·|)).sum := List.sum_nonneg (by simp)
  have hpos : 0 < 1 / (1 + (i.map (|·|)).sum) := by positivity
  have hb1 : (i.map (1 / (1 + (i.map (|·|)).sum) * ·)).length = lengthOf ks := by rw [List.length_map]; exact k1
  have hb2 : ∀ z ∈ i.map (1 / (1 + (i.map (|·|)).sum) * ·), |z| ≤ 1 := by
    intro z hz
    obtain ⟨w, hw, rfl⟩ := List.mem_map.1 hz
    rw [abs_mul, abs_of_pos hpos, one_div, inv_mul_le_iff₀ (by positivity), mul_one]
    linarith [abs_le_sum hw]
  obtain ⟨-, -, s2, v2⟩ := fed_step (tau := tau) (limits := limits) hf hu hact st1 c1 hs hy1 (by rw [hI]; exact k1) hb1 hb2
  rw [hI, k2, add_zero, s1] at s2
  rw [hI, v1] at v2
  refine ⟨_, hbox _ hb1 hb2, _, _, _, _, _, _, _, _, s2, v2, ?_, dot_zero _ _ _, ?_⟩
  · rw [dot_zero, g2, add_zero]
  · exact lt_of_lt_of_le (mul_pos (by linarith) (sq_sum_pos hx h0)) (dot_self ks i k1 hpos.le)

/-! ### Examples -/

theorem simulate_shaped {Y U A S C P : Type} {p : Parts ℝ Y U A S C P} {f : Frame ℝ Y U A} {tau : ℝ} {limits : List ℝ}
    {shape : Y → Prop} (hs : ∀ s u t, shape (p.solverY s) → shape (p.solverY (p.integrate s u t))) (st : St ℝ S C P) (a : A)
    (hy : shape (p.solverY st.solver)) : shape (p.solverY (simulate p f tau limits st a).1.solver) := by
  have one : ∀ (toU : Y → List ℝ → Except Err U) (st : St ℝ S C P) t, shape (p.solverY st.solver) →
      shape (p.solverY (piece p f toU st t).1.solver) := by
    intro toU st t h
    unfold piece
    dsimp only
    split
    · exact h
    · split
      · exact h
      · split
        · exact h
        · exact hs _ _ _ h
  have many : ∀ (ts : List ℝ) (st : St ℝ S C P), shape (p.solverY st.solver) → shape (p.solverY (pieces p f ts st).1.solver) := by
    intro ts
    induction ts with
    | nil => exact fun st h => h
    | cons t ts ih =>
      intro st h
      have h1 := one f.loopU st t h
      simp only [pieces]
      generalize piece p f f.loopU st t = R at h1
      obtain ⟨s1, r1⟩ := R
      cases r1 with
      | error e => exact h1
      | ok x => exact ih s1 h1
  rw [simulate_eq]
  cases (p.setAction st.conv (f.action (p.solverY st.solver) a) st.t).2 with
  | error e => exact hy
  | ok times =>
    have h1 := many times.dropLast { st with conv := (p.setAction st.conv (f.action (p.solverY st.solver) a) st.t).1 } hy
    dsimp only
    generalize pieces p f times.dropLast { st with conv := (p.setAction st.conv (f.action (p.solverY st.solver) a) st.t).1 } = R at h1
    obtain ⟨s1, r1⟩ := R
    cases r1 with
    | error e => exact h1
    | ok x =>
      have h2 := one f.lastU s1 (s1.t + tau) h1
      simp only [Call.bind]
      generalize piece p f f.lastU s1 (s1.t + tau) = R at h2
      obtain ⟨s2, r2⟩ := R
      cases r2 with
      | error e => exact h2
      | ok uv => exact h2

/-- A four quadrant converter with the action for full voltage, then with the opposite one, with a current of 3: the second request is for
the current of the first action (the first one, for an interval of no length, for that of open switches). -/
example : (after (spied (restingParts finitePower)) (dcFrame id (fun i => i.headD 0) [0] 1 1) (dcResetReport (fun i => i.headD 0) [0])
      (1 / 100000) [1, 1, 1, 1, 1] (blank ⟨0, 0, (⟨[0], [0]⟩, 0), (newF .four).setTau (1 / 100000), ()⟩)
      [.inl ⟨[0], [3]⟩, .inr 1, .inr 2]).supply.2 = [(1 / 100000, 3), (0, -3)] ∧
    (after (spied (restingParts finitePower)) (dcFrame id (fun i => i.headD 0) [0] 1 1) (dcResetReport (fun i => i.headD 0) [0])
      (1 / 100000) [1, 1, 1, 1, 1] (blank ⟨0, 0, (⟨[0], [0]⟩, 0), (newF .four).setTau (1 / 100000), ()⟩)
      [.inl ⟨[0], [3]⟩, .inr 1, .inr 2]).conv.2 = [([3], [-1]), ([3], [1])] := by
  simp [after, simulate, reset, blank, spied, restingParts, finitePower, newF, FConv.setTau, FourQC.new, TwoQC.new, FConv.reset, FourQC.reset,
    TwoQC.reset, dcFrame, FConv.setAction, FourQC.setAction, TwoQC.setAction, fourAction0, fourAction1, sortedSet, pieces, piece, Call.bind,
    FConv.iSup, FourQC.iSup, TwoQC.iSup, FConv.convert, FourQC.convert, TwoQC.convert]

/-- A PMSM in which a current flows, with a motor that does not move. -/
example (tau : ℝ) (limits : List ℝ) : ∃ a b : List ℝ, ∃ t₁ t₂ w is i j u v,
    (after (spied (restingParts contPower)) (asIs (syncFrame (fun _ => 0) false)) (syncReset fun _ => 0) tau limits
      (blank ⟨0, 0, (⟨[0], ![0, 0], 0⟩, 0), (newC .b6).setTau tau, ()⟩) [.inl ⟨[0], ![1, 0], 0⟩, .inr a, .inr b]).supply.2
        = [(t₂, is), (t₁, w)] ∧
    (after (spied (restingParts contPower)) (asIs (syncFrame (fun _ => 0) false)) (syncReset fun _ => 0) tau limits
      (blank ⟨0, 0, (⟨[0], ![0, 0], 0⟩, 0), (newC .b6).setTau tau, ()⟩) [.inl ⟨[0], ![1, 0], 0⟩, .inr a, .inr b]).conv.2
        = [(i, u), (j, v)] ∧ w = 0 ∧ dot v i = 0 ∧ 0 < is := by
  obtain ⟨a, -, h⟩ := c119_violated (tau := tau) (limits := limits) (Drives.pmsm fun _ => 0) (.continuous .b6) (.continuous .b6) (restingParts contPower)
    ⟨rfl, rfl, rfl, rfl⟩ ⟨fun _ _ _ => rfl, fun _ => rfl, fun _ _ _ h => h, fun _ _ _ h => h⟩
    ⟨0, 0, (⟨[0], ![0, 0], 0⟩, 0), (newC .b6).setTau tau, ()⟩ rfl ⟨[0], ![1, 0], 0⟩ rfl
  have hy := simulate_shaped (p := spied (restingParts contPower)) (f := asIs (syncFrame (fun _ => 0) false)) (tau := tau) (limits := limits)
    (shape := fun y : SyncY => y = ⟨[0], ![1, 0], 0⟩) (fun _ _ _ h => h) (reset (spied (restingParts (U := Fin 2 → ℝ) contPower)) (syncReset fun _ => 0) limits
      (blank ⟨0, 0, (⟨[0], ![0, 0], 0⟩, 0), (newC .b6).setTau tau, ()⟩) ⟨[0], ![1, 0], 0⟩).1 a rfl
  obtain ⟨b, -, h⟩ := h 1 (by
    simp only [after]
    refine Eq.mpr (congrArg (fun y : SyncY => (1 : ℝ) ∈ l3 (dqToAbc y.i y.eps)) hy) ?_
    simp [l3, dqToAbc, t32, q, Matrix.mulVec, dotProduct]) one_ne_zero
  exact ⟨a, b, h⟩

end

end GEM.Props
