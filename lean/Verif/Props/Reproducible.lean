import Verif.Props.Registry
import Verif.Props.Seeding
import Verif.Model.SeededRefs

/-!
# C04: the environments of the package are reproducible
-/

set_option linter.unusedSectionVars false

namespace GEM.Props

noncomputable section

open GEM GEM.Sys GEM.Conv GEM.Refs GEM.Assembly GEM.Registry GEM.Seeding

/-! ## Statement -/

section statement

variable {Y U A S C P G τ : Type}

/-- the call has raised an exception -/
def Raised {S O K : Type} : Core.Out S O K → Prop
  | .resetRaised _ => True
  | .step (.raised _) => True
  | _ => False

/-- Motor and load draw the start state from generators that are made from the seed. -/
structure Draws (start : G → G × Y) (seedSystem : ℕ → G → G) (kin : G → Prop) (shape : Y → Prop) : Prop where
  seed_kin : ∀ n g, kin g → kin (seedSystem n g)
  start_kin : ∀ g, kin g → kin (start g).1
  same : ∀ n g g', kin g → kin g' → (start (seedSystem n g)).2 = (start (seedSystem n g')).2
  shape : ∀ g, shape (start g).2

/-- Solver and supply of one and the same object: initial values and resets let them forget the past; at time 0, directly after the
reset, the voltage does not depend on the current. -/
structure Restarts (p : Parts ℝ Y U A S C P) (kinS : S → Prop) (kinP still : P → Prop) : Prop where
  integrate : ∀ s u t, kinS s → kinS (p.integrate s u t)
  setInitial : ∀ s y t, kinS s → kinS (p.setInitial s y t)
  initial : ∀ s s' y, kinS s → kinS s' → p.setInitial s y 0 = p.setInitial s' y 0
  voltage : ∀ s t i, kinP s → kinP (p.getVoltage s t i).1
  reset : ∀ s, kinP s → kinP (p.supplyReset s).1
  supply : ∀ s s', kinP s → kinP s' → p.supplyReset s = p.supplyReset s'
  settles : ∀ s, kinP s → still (p.supplyReset s).1
  begin : ∀ s i i', still s → p.getVoltage s 0 i = p.getVoltage s 0 i'

/-- Reference generators that forget the past when they are seeded and reset: what they return from then on depends on the seed and on
what they are told.  `kin`: the attributes of one and the same object. -/
structure Recalls (gen : RefGen τ ℝ) (seedRef : ℕ → τ → τ) (kin : τ → Prop) (warm hot : τ → τ → Prop) : Prop where
  seed_kin : ∀ n x, kin x → kin (seedRef n x)
  reset_kin : ∀ x s i, kin x → kin (gen.reset x s i).1
  ref_kin : ∀ x s, kin x → kin (gen.getRef x s).1
  obs_kin : ∀ x s, kin x → kin (gen.getObs x s).1
  reset : ∀ n x x' s d o, kin x → kin x' → gen.reset (seedRef n x) s none = (d, .ok o) →
    ∃ d', gen.reset (seedRef n x') s none = (d', .ok o) ∧ warm d d'
  getRef : ∀ x x' s d o, warm x x' → gen.getRef x s = (d, .ok o) → ∃ d', gen.getRef x' s = (d', .ok o) ∧ hot d d'
  getObs : ∀ x x' s d o, hot x x' → gen.getObs x s = (d, .ok o) → ∃ d', gen.getObs x' s = (d', .ok o) ∧ warm d d'

/-- Converters without interlocking time: after a reset they may differ in the position of their switches (`near`), after the next
action (`armed`) they do the same. -/
structure Forgetting (pw : Power A C) (kin : C → Prop) (near armed : C → C → Prop) (legal : A → Prop) (n : ℕ) : Prop where
  set_kin : ∀ c a t, kin c → kin (pw.setAction c a t).1
  convert_kin : ∀ c i t, kin c → kin (pw.convert c i t).1
  reset_kin : ∀ c, kin c → kin (pw.reset c).1
  reset : ∀ c c', kin c → kin c' → (pw.reset c).2 = (pw.reset c').2 ∧ near (pw.reset c).1 (pw.reset c').1
  set : ∀ c c' a t d ts, near c c' → legal a → pw.setAction c a t = (d, .ok ts) →
    ∃ d', pw.setAction c' a t = (d', .ok ts) ∧ armed d d'
  convert : ∀ c c' i t d u, armed c c' → pw.convert c i t = (d, .ok u) → pw.convert c' i t = (d, .ok u)
  iSup : ∀ c i, kin c → i.length = n → ∃ w, pw.iSup c i = .ok w

/-- the attributes of the modules of one and the same environment -/
def KinWorld (kinC : C → Prop) (kinS : S → Prop) (kinP : P → Prop) (kinG : G → Prop) (kinR : τ → Prop) (x : World S C P G τ) : Prop :=
  kinC x.sys.conv ∧ kinS x.sys.solver ∧ kinP x.sys.supply ∧ kinG x.draws ∧ kinR x.ref

end statement

/-! ## The physical system -/

section system

variable {Y U A S C P : Type} {p : Parts ℝ Y U A S C P} {f : Frame ℝ Y U A} {rep : Y → List ℝ → List ℝ → Except Err (List ℝ)} {tau : ℝ}
  {limits : List ℝ} {pw : Power A C} {kinC : C → Prop} {near armed : C → C → Prop} {legal : A → Prop} {n : ℕ} {kinS : S → Prop}
  {kinP still : P → Prop} {shape : Y → Prop}

theorem simulate_unfold (p : Parts ℝ Y U A S C P) (f : Frame ℝ Y U A) (tau : ℝ) (limits : List ℝ) (st : St ℝ S C P) (a : A) :
    simulate p f tau limits st a =
      match (p.setAction st.conv (f.action (p.solverY st.solver) a) st.t).2 with
      | .error e => ({ st with conv := (p.setAction st.conv (f.action (p.solverY st.solver) a) st.t).1 }, .error e)
      | .ok times =>
        Call.bind (pieces p f times.dropLast { st with conv := (p.setAction st.conv (f.action (p.solverY st.solver) a) st.t).1 }) (fun st _ =>
          Call.bind (piece p f f.lastU st (st.t + tau)) (fun st' uv =>
            ({ st' with t := p.solverT st'.solver, k := st'.k + 1 },
              (f.report (p.solverY st.solver) (p.solverY st'.solver) uv.1 uv.2).bind (fun s => divLimits s limits)))) := by
  unfold simulate
  dsimp only
  cases (p.setAction st.conv (f.action (p.solverY st.solver) a) st.t).2 <;> rfl

theorem piece_unfold (p : Parts ℝ Y U A S C P) (f : Frame ℝ Y U A) (toU : Y → List ℝ → Except Err U) (st : St ℝ S C P) (t : ℝ) :
    piece p f toU st t =
      match p.iSup st.conv (f.iIn (p.solverY st.solver)) with
      | .error e => (st, .error e)
      | .ok is =>
        match (p.convert st.conv (f.iIn (p.solverY st.solver)) (p.solverT st.solver)).2 with
        | .error e => ({ st with supply := (p.getVoltage st.supply st.t is).1,
                                 conv := (p.convert st.conv (f.iIn (p.solverY st.solver)) (p.solverT st.solver)).1 }, .error e)
        | .ok u =>
          match toU (p.solverY st.solver) (products u (p.getVoltage st.supply st.t is).2) with
          | .error e => ({ st with supply := (p.getVoltage st.supply st.t is).1,
                                   conv := (p.convert st.conv (f.iIn (p.solverY st.solver)) (p.solverT st.solver)).1 }, .error e)
          | .ok v => ({ st with supply := (p.getVoltage st.supply st.t is).1,
                                conv := (p.convert st.conv (f.iIn (p.solverY st.solver)) (p.solverT st.solver)).1,
                                solver := p.integrate st.solver v t },
              .ok (products u (p.getVoltage st.supply st.t is).2, (p.getVoltage st.supply st.t is).2)) := by
  unfold piece
  dsimp only
  cases p.iSup st.conv (f.iIn (p.solverY st.solver)) with
  | error e => rfl
  | ok is =>
    dsimp only
    cases (p.convert st.conv (f.iIn (p.solverY st.solver)) (p.solverT st.solver)).2 with
    | error e => rfl
    | ok u =>
      dsimp only
      cases toU (p.solverY st.solver) (products u (p.getVoltage st.supply st.t is).2) <;> rfl

/-- the kin of a system -/
def KinSys (kinC : C → Prop) (kinS : S → Prop) (kinP : P → Prop) (st : St ℝ S C P) : Prop := kinC st.conv ∧ kinS st.solver ∧ kinP st.supply

theorem piece_kin (hu : Uses p pw) (hc : Forgetting pw kinC near armed legal n) (hr : Restarts p kinS kinP still)
    (toU : Y → List ℝ → Except Err U) (st : St ℝ S C P) (t : ℝ) (h : KinSys kinC kinS kinP st) :
    KinSys kinC kinS kinP (piece p f toU st t).1 := by
  obtain ⟨h1, h2, h3⟩ := h
  unfold piece
  rw [hu.2.1, hu.2.2.1]
  dsimp only
  split
  · exact ⟨h1, h2, h3⟩
  · split
    · exact ⟨hc.convert_kin _ _ _ h1, h2, hr.voltage _ _ _ h3⟩
    · split
      · exact ⟨hc.convert_kin _ _ _ h1, h2, hr.voltage _ _ _ h3⟩
      · exact ⟨hc.convert_kin _ _ _ h1, hr.integrate _ _ _ h2, hr.voltage _ _ _ h3⟩

theorem pieces_kin (hu : Uses p pw) (hc : Forgetting pw kinC near armed legal n) (hr : Restarts p kinS kinP still) (ts : List ℝ)
    (st : St ℝ S C P) (h : KinSys kinC kinS kinP st) : KinSys kinC kinS kinP (pieces p f ts st).1 := by
  induction ts generalizing st with
  | nil => exact h
  | cons t ts ih =>
    have h1 := piece_kin (f := f) hu hc hr f.loopU st t h
    simp only [pieces]
    generalize piece p f f.loopU st t = R at h1
    obtain ⟨s1, r1⟩ := R
    cases r1 with
    | error e => exact h1
    | ok x => exact ih s1 h1

theorem simulate_kin (hu : Uses p pw) (hc : Forgetting pw kinC near armed legal n) (hr : Restarts p kinS kinP still)
    (st : St ℝ S C P) (a : A) (h : KinSys kinC kinS kinP st) : KinSys kinC kinS kinP (simulate p f tau limits st a).1 := by
  rw [simulate_unfold]
  have h0 : KinSys kinC kinS kinP { st with conv := (p.setAction st.conv (f.action (p.solverY st.solver) a) st.t).1 } := by
    refine ⟨?_, h.2⟩
    rw [hu.1]
    exact hc.set_kin _ _ _ h.1
  cases (p.setAction st.conv (f.action (p.solverY st.solver) a) st.t).2 with
  | error e => exact h0
  | ok times =>
    have h1 := pieces_kin (f := f) hu hc hr times.dropLast _ h0
    dsimp only
    generalize pieces p f times.dropLast { st with conv := (p.setAction st.conv (f.action (p.solverY st.solver) a) st.t).1 } = R at h1
    obtain ⟨s1, r1⟩ := R
    cases r1 with
    | error e => exact h1
    | ok x =>
      have h2 := piece_kin (f := f) hu hc hr f.lastU s1 (s1.t + tau) h1
      simp only [Call.bind]
      generalize piece p f f.lastU s1 (s1.t + tau) = R at h2
      obtain ⟨s2, r2⟩ := R
      cases r2 with
      | error e => exact h2
      | ok uv => exact h2

theorem sysReset_kin (hu : Uses p pw) (hc : Forgetting pw kinC near armed legal n) (hr : Restarts p kinS kinP still)
    (st : St ℝ S C P) (y : Y) (h : KinSys kinC kinS kinP st) : KinSys kinC kinS kinP (reset p rep limits st y).1 := by
  refine ⟨?_, hr.setInitial _ _ _ h.2.1, hr.reset _ h.2.2⟩
  show kinC (p.convReset st.conv).1
  rw [hu.2.2.2]
  exact hc.reset_kin _ h.1

/-- Two systems after a reset that differ at most in their converters. -/
structure Anew (p : Parts ℝ Y U A S C P) (kinC : C → Prop) (still : P → Prop) (shape : Y → Prop) (rel : C → C → Prop)
    (st st' : St ℝ S C P) : Prop where
  time : st.t = 0
  supply : still st.supply
  shape : shape (p.solverY st.solver)
  kin : kinC st.conv ∧ kinC st'.conv
  same : st' = { st with conv := st'.conv }
  conv : rel st.conv st'.conv

theorem piece_anew (hu : Uses p pw) (hc : Forgetting pw kinC near armed legal n) (hr : Restarts p kinS kinP still)
    (hi : ∀ y, shape y → (f.iIn y).length = n) (toU : Y → List ℝ → Except Err U) (st st' : St ℝ S C P) (t : ℝ)
    (h : Anew p kinC still shape armed st st') (d : St ℝ S C P) (o : List ℝ × List ℝ) (e : piece p f toU st t = (d, .ok o)) :
    piece p f toU st' t = (d, .ok o) := by
  obtain ⟨h1, h2, h3, ⟨h4, h4'⟩, h5, h6⟩ := h
  obtain ⟨w, hw⟩ := hc.iSup _ _ h4 (hi _ h3)
  obtain ⟨w', hw'⟩ := hc.iSup _ _ h4' (hi _ h3)
  obtain ⟨t0, k0, s0, c0, q0⟩ := st
  obtain ⟨t1, k1, s1, c1, q1⟩ := st'
  simp only [St.mk.injEq, true_and] at h5
  obtain ⟨rfl, rfl, rfl, rfl⟩ := h5
  dsimp only at *
  subst h1
  rw [piece_unfold] at e ⊢
  rw [hu.2.1, hu.2.2.1] at e ⊢
  dsimp only at e ⊢
  rw [hw] at e
  rw [hw']
  dsimp only at e ⊢
  rw [hr.begin _ w' w h2]
  cases hcv : pw.convert c0 (f.iIn (p.solverY s1)) (p.solverT s1) with
  | mk c2 r =>
    rw [hcv] at e
    cases r with
    | error x => simp at e
    | ok u =>
      rw [hc.convert _ _ _ _ _ _ h6 hcv]
      exact e

theorem pieces_anew (hu : Uses p pw) (hc : Forgetting pw kinC near armed legal n) (hr : Restarts p kinS kinP still)
    (hi : ∀ y, shape y → (f.iIn y).length = n) (ts : List ℝ) (st st' : St ℝ S C P)
    (h : Anew p kinC still shape armed st st') (d : St ℝ S C P) (e : pieces p f ts st = (d, .ok ())) :
    ∃ d', pieces p f ts st' = (d', .ok ()) ∧ (d = d' ∨ Anew p kinC still shape armed d d') := by
  cases ts with
  | nil =>
    simp only [pieces, Prod.mk.injEq, and_true] at e
    subst e
    exact ⟨st', rfl, Or.inr h⟩
  | cons t ts =>
    simp only [pieces] at e ⊢
    cases hp : piece p f f.loopU st t with
    | mk s1 r1 =>
      rw [hp] at e
      cases r1 with
      | error x => simp [Call.bind] at e
      | ok x =>
        rw [piece_anew hu hc hr hi f.loopU st st' t h s1 x hp]
        exact ⟨d, e, Or.inl rfl⟩

/-- A step lets the difference disappear. -/
theorem simulate_anew (hu : Uses p pw) (hc : Forgetting pw kinC near armed legal n) (hr : Restarts p kinS kinP still)
    (hi : ∀ y, shape y → (f.iIn y).length = n) (st st' : St ℝ S C P) (a : A) (ha : ∀ y, legal (f.action y a))
    (h : Anew p kinC still shape near st st') (d : St ℝ S C P) (s : List ℝ) (e : simulate p f tau limits st a = (d, .ok s)) :
    simulate p f tau limits st' a = (d, .ok s) := by
  obtain ⟨h1, h2, h3, ⟨h4, h4'⟩, h5, h6⟩ := h
  rw [simulate_unfold] at e ⊢
  obtain ⟨t0, k0, s0, c0, q0⟩ := st
  obtain ⟨t1, k1, s1, c1, q1⟩ := st'
  simp only [St.mk.injEq, true_and] at h5
  obtain ⟨rfl, rfl, rfl, rfl⟩ := h5
  dsimp only at *
  rw [hu.1] at e ⊢
  cases hs : pw.setAction c0 (f.action (p.solverY s1) a) t1 with
  | mk c2 r =>
    rw [hs] at e
    cases r with
    | error x => simp at e
    | ok ts =>
      obtain ⟨c3, hs', har⟩ := hc.set _ _ _ _ _ _ h6 (ha _) hs
      rw [hs']
      dsimp only at e ⊢
      have hk : kinC c2 := by have := hc.set_kin c0 (f.action (p.solverY s1) a) t1 h4; rwa [hs] at this
      have hk' : kinC c3 := by have := hc.set_kin c1 (f.action (p.solverY s1) a) t1 h4'; rwa [hs'] at this
      cases hq : pieces p f ts.dropLast ⟨t1, k1, s1, c2, q1⟩ with
      | mk d1 r1 =>
        rw [hq] at e
        cases r1 with
        | error x => simp [Call.bind] at e
        | ok x =>
          obtain ⟨d1', hq', hd⟩ := pieces_anew (f := f) hu hc hr hi ts.dropLast ⟨t1, k1, s1, c2, q1⟩ ⟨t1, k1, s1, c3, q1⟩
            ⟨h1, h2, h3, ⟨hk, hk'⟩, rfl, har⟩ d1 hq
          rw [hq']
          simp only [Call.bind] at e ⊢
          rcases hd with rfl | hd
          · exact e
          · cases hl : piece p f f.lastU d1 (d1.t + tau) with
            | mk d2 r2 =>
              rw [hl] at e
              cases r2 with
              | error x => simp at e
              | ok uv =>
                have ht : d1'.t = d1.t := by rw [hd.same]
                have hsol : d1'.solver = d1.solver := by rw [hd.same]
                rw [ht, piece_anew hu hc hr hi f.lastU d1 d1' _ hd d2 uv hl, hsol]
                exact e

/-- What a reset leaves of the difference. -/
theorem sysReset_anew (hu : Uses p pw) (hc : Forgetting pw kinC near armed legal n) (hr : Restarts p kinS kinP still)
    (hs : Shaped p shape) (st st' : St ℝ S C P) (y : Y) (hy : shape y) (h : KinSys kinC kinS kinP st) (h' : KinSys kinC kinS kinP st') :
    (reset p rep limits st' y).2 = (reset p rep limits st y).2 ∧
      Anew p kinC still shape near (reset p rep limits st y).1 (reset p rep limits st' y).1 := by
  obtain ⟨e1, e2⟩ := hc.reset _ _ h.1 h'.1
  refine ⟨?_, ⟨rfl, hr.settles _ h.2.2, hs.initial _ _ _ hy, ⟨?_, ?_⟩, ?_, ?_⟩⟩
  · show (rep y (products (p.convReset st'.conv).2 (p.supplyReset st'.supply).2) (p.supplyReset st'.supply).2).bind _
      = (rep y (products (p.convReset st.conv).2 (p.supplyReset st.supply).2) (p.supplyReset st.supply).2).bind _
    rw [hu.2.2.2, e1, hr.supply _ _ h.2.2 h'.2.2]
  · exact (sysReset_kin (rep := rep) (limits := limits) hu hc hr st y h).1
  · exact (sysReset_kin (rep := rep) (limits := limits) hu hc hr st' y h').1
  · show (⟨0, 0, p.setInitial st'.solver y 0, (p.convReset st'.conv).1, (p.supplyReset st'.supply).1⟩ : St ℝ S C P)
      = ⟨0, 0, p.setInitial st.solver y 0, (p.convReset st'.conv).1, (p.supplyReset st.supply).1⟩
    rw [hr.supply _ _ h.2.2 h'.2.2, hr.initial _ _ _ h.2.1 h'.2.1]
  · show near (p.convReset st.conv).1 (p.convReset st'.conv).1
    rw [hu.2.2.2]
    exact e2

end system

/-! ## The environment loop -/

section loop

variable {Y U A S C P G τ : Type} {c : Setup Y U A S C P G τ} {w : Reward.Wse String} {m : Constr.Monitor (List ℝ) ℝ} {idx : List ℕ}
  {pw : Power A C} {kinC : C → Prop} {near armed : C → C → Prop} {legal space : A → Prop} {n : ℕ} {kinS : S → Prop}
  {kinP still : P → Prop} {kinG : G → Prop} {kinR : τ → Prop} {warm hot : τ → τ → Prop} {shape : Y → Prop}

theorem fired_comp (e : Core.Env (World S C P G τ) A (List ℝ) (List ℝ) (List ℝ) ℝ) (ev : Core.CbEvent A (List ℝ) (List ℝ) ℝ) :
    (e.fire (comps c w m idx) ev).comp = e.comp := by
  simp only [Core.Env.fire, comps]
  generalize List.range c.nCb = l
  induction l with
  | nil => rfl
  | cons i l ih => exact ih

theorem fire_flag (e : Core.Env (World S C P G τ) A (List ℝ) (List ℝ) (List ℝ) ℝ) (ev : Core.CbEvent A (List ℝ) (List ℝ) ℝ) :
    (e.fire (comps c w m idx) ev).terminated = e.terminated := rfl

/-- Two environments that will answer in the same way. -/
def Alike (c : Setup Y U A S C P G τ) (kinC : C → Prop) (still : P → Prop) (shape : Y → Prop) (near : C → C → Prop) (warm : τ → τ → Prop)
    (e e' : Core.Env (World S C P G τ) A (List ℝ) (List ℝ) (List ℝ) ℝ) : Prop :=
  e.terminated = e'.terminated ∧ (e.comp.sys = e'.comp.sys ∨ Anew c.p kinC still shape near e.comp.sys e'.comp.sys) ∧
    warm e.comp.ref e'.comp.ref

/-- What all modules have to fulfil. -/
structure Reproduces (c : Setup Y U A S C P G τ) (pw : Power A C) (kinC : C → Prop) (near armed : C → C → Prop) (legal space : A → Prop) (n : ℕ)
    (kinS : S → Prop) (kinP still : P → Prop) (kinG : G → Prop) (kinR : τ → Prop) (warm hot : τ → τ → Prop) (shape : Y → Prop) : Prop where
  uses : Uses c.p pw
  conv : Forgetting pw kinC near armed legal n
  parts : Restarts c.p kinS kinP still
  shaped : Shaped c.p shape
  currents : ∀ y, shape y → (c.f.iIn y).length = n
  actions : ∀ y a, space a → legal (c.f.action y a)
  draws : Draws c.start c.seedSystem kinG shape
  refs : Recalls c.gen c.seedRef kinR warm hot

theorem env_kin (h : Reproduces c pw kinC near armed legal space n kinS kinP still kinG kinR warm hot shape)
    (e : Core.Env (World S C P G τ) A (List ℝ) (List ℝ) (List ℝ) ℝ) (he : KinWorld kinC kinS kinP kinG kinR e.comp)
    (op : Core.Op (World S C P G τ) A)
    (hop : ∀ f, op = .setRef f ∨ op = .setReward f → ∀ c, KinWorld kinC kinS kinP kinG kinR c → KinWorld kinC kinS kinP kinG kinR (f c)) :
    KinWorld kinC kinS kinP kinG kinR (Core.apply (comps c w m idx) e op).1.comp := by
  cases op with
  | setRef f => exact hop f (Or.inl rfl) _ he
  | setReward f => exact hop f (Or.inr rfl) _ he
  | close => simp only [Core.apply, fired_comp]; exact he
  | reset s =>
    simp only [Core.apply, Core.Env.reset, Core.Env.call, Call.bind]
    have h0 : KinWorld kinC kinS kinP kinG kinR ((comps c w m idx).psReset ((comps c w m idx).seed s e.comp)).1 := by
      obtain ⟨h1, h2, h3, h4, h5⟩ := he
      have h6 := h.draws.seed_kin s _ h4
      obtain ⟨k1, k2, k3⟩ := sysReset_kin (rep := c.rep) (limits := c.limits) h.uses h.conv h.parts e.comp.sys
        (c.start (c.seedSystem s e.comp.draws)).2 ⟨h1, h2, h3⟩
      exact ⟨k1, k2, k3, h.draws.start_kin _ h6, h.refs.seed_kin _ _ h5⟩
    rw [fired_comp]
    dsimp only
    generalize (comps c w m idx).psReset ((comps c w m idx).seed s e.comp) = R at h0
    obtain ⟨x1, r1⟩ := R
    cases r1 with
    | error er => exact h0
    | ok s1 =>
      have h1 : KinWorld kinC kinS kinP kinG kinR ((comps c w m idx).refReset x1 s1).1 := by
        obtain ⟨a1, a2, a3, a4, a5⟩ := h0
        exact ⟨a1, a2, a3, a4, h.refs.reset_kin _ _ _ a5⟩
      dsimp only
      generalize (comps c w m idx).refReset x1 s1 = R at h1
      obtain ⟨x2, r2⟩ := R
      cases r2 with
      | error er => exact h1
      | ok ro =>
        dsimp only
        rw [fired_comp]
        exact h1
  | step a =>
    simp only [Core.apply, Core.Env.step]
    split
    · exact he
    · simp only [Core.Env.stepBody, Core.Env.call, Call.bind]
      rw [fired_comp]
      have h0 : KinWorld kinC kinS kinP kinG kinR ((comps c w m idx).simulate e.comp a).1 := by
        obtain ⟨h1, h2, h3, h4, h5⟩ := he
        obtain ⟨k1, k2, k3⟩ := simulate_kin (f := c.f) (tau := c.tau) (limits := c.limits) h.uses h.conv h.parts e.comp.sys a ⟨h1, h2, h3⟩
        exact ⟨k1, k2, k3, h4, h5⟩
      generalize (comps c w m idx).simulate e.comp a = R at h0
      obtain ⟨x1, r1⟩ := R
      cases r1 with
      | error er => exact h0
      | ok s1 =>
        have h1 : KinWorld kinC kinS kinP kinG kinR ((comps c w m idx).getRef x1 s1).1 := by
          obtain ⟨a1, a2, a3, a4, a5⟩ := h0
          exact ⟨a1, a2, a3, a4, h.refs.ref_kin _ _ a5⟩
        dsimp only
        generalize (comps c w m idx).getRef x1 s1 = R at h1
        obtain ⟨x2, r2⟩ := R
        cases r2 with
        | error er => exact h1
        | ok r =>
          dsimp only [comps] at h1 ⊢
          cases m.check s1 with
          | error er => exact h1
          | ok d =>
            dsimp only
            cases number (Reward.reward w s1 r d) with
            | error er => exact h1
            | ok v =>
              have h2 : KinWorld kinC kinS kinP kinG kinR { x2 with ref := (c.gen.getObs x2.ref s1).1 } := by
                obtain ⟨a1, a2, a3, a4, a5⟩ := h1
                exact ⟨a1, a2, a3, a4, h.refs.obs_kin _ _ a5⟩
              dsimp only
              cases (c.gen.getObs x2.ref s1).2 with
              | error er => exact h2
              | ok o =>
                dsimp only
                have := fired_comp (c := c) (w := w) (m := m) (idx := idx)
                simp only [comps] at this
                rw [this]
                exact h2

theorem psReset_eq (x : World S C P G τ) : (comps c w m idx).psReset x =
    ({ x with draws := (c.start x.draws).1, sys := (reset c.p c.rep c.limits x.sys (c.start x.draws).2).1 },
      (reset c.p c.rep c.limits x.sys (c.start x.draws).2).2) := rfl

/-- After a seeded reset the environments are alike. -/
theorem reset_alike (h : Reproduces c pw kinC near armed legal space n kinS kinP still kinG kinR warm hot shape)
    (e e' : Core.Env (World S C P G τ) A (List ℝ) (List ℝ) (List ℝ) ℝ) (he : KinWorld kinC kinS kinP kinG kinR e.comp)
    (he' : KinWorld kinC kinS kinP kinG kinR e'.comp) (s : ℕ)
    (hr : ¬ Raised (Core.apply (comps c w m idx) e (.reset s)).2) :
    (Core.apply (comps c w m idx) e' (.reset s)).2 = (Core.apply (comps c w m idx) e (.reset s)).2 ∧
      Alike c kinC still shape near warm (Core.apply (comps c w m idx) e (.reset s)).1 (Core.apply (comps c w m idx) e' (.reset s)).1 := by
  obtain ⟨h1, h2, h3, h4, h5⟩ := he
  obtain ⟨h1', h2', h3', h4', h5'⟩ := he'
  have hy := h.draws.same s _ _ h4 h4'
  obtain ⟨a1, a2⟩ := sysReset_anew (rep := c.rep) (limits := c.limits) h.uses h.conv h.parts h.shaped e.comp.sys e'.comp.sys
    (c.start (c.seedSystem s e.comp.draws)).2 (h.draws.shape _) ⟨h1, h2, h3⟩ ⟨h1', h2', h3'⟩
  simp only [Core.apply, Core.Env.reset, Core.Env.call, Call.bind, fired_comp] at hr ⊢
  rw [psReset_eq] at hr ⊢
  rw [psReset_eq]
  dsimp only [comps] at hr ⊢
  rw [← hy]
  generalize reset c.p c.rep c.limits e.comp.sys (c.start (c.seedSystem s e.comp.draws)).2 = R at *
  generalize reset c.p c.rep c.limits e'.comp.sys (c.start (c.seedSystem s e.comp.draws)).2 = R' at *
  obtain ⟨s1, r1⟩ := R
  obtain ⟨s1', r1'⟩ := R'
  dsimp only at a1 a2
  subst a1
  cases r1' with
  | error er => exact absurd trivial hr
  | ok st =>
    dsimp only at hr ⊢
    cases hg : c.gen.reset (c.seedRef s e.comp.ref) st none with
    | mk g1 o =>
      rw [hg] at hr
      cases o with
      | error er => exact absurd trivial hr
      | ok o =>
        obtain ⟨g1', hg', hw⟩ := h.refs.reset s _ e'.comp.ref st g1 o h5 h5' hg
        rw [hg']
        dsimp only
        refine ⟨rfl, rfl, Or.inr ?_, ?_⟩
        · have := fired_comp (c := c) (w := w) (m := m) (idx := idx)
          simp only [comps] at this
          rw [this, this]
          exact a2
        · have := fired_comp (c := c) (w := w) (m := m) (idx := idx)
          simp only [comps] at this
          rw [this, this]
          exact hw

/-- Environments that are alike answer in the same way. -/
theorem step_alike (h : Reproduces c pw kinC near armed legal space n kinS kinP still kinG kinR warm hot shape)
    (e e' : Core.Env (World S C P G τ) A (List ℝ) (List ℝ) (List ℝ) ℝ) (ha : Alike c kinC still shape near warm e e') (a : A)
    (hs : space a) (hr : ¬ Raised (Core.apply (comps c w m idx) e (.step a)).2) :
    (Core.apply (comps c w m idx) e' (.step a)).2 = (Core.apply (comps c w m idx) e (.step a)).2 ∧
      Alike c kinC still shape near warm (Core.apply (comps c w m idx) e (.step a)).1 (Core.apply (comps c w m idx) e' (.step a)).1 := by
  obtain ⟨ht, hsys, hw⟩ := id ha
  simp only [Core.apply, Core.Env.step, ← ht] at hr ⊢
  split
  · exact ⟨rfl, ha⟩
  · rename_i hf
    rw [if_neg hf] at hr
    have fc := fired_comp (c := c) (w := w) (m := m) (idx := idx)
    simp only [Core.Env.stepBody, Core.Env.call, Call.bind, fc] at hr ⊢
    simp only [comps] at fc
    dsimp only [comps] at hr ⊢
    cases hsim : simulate c.p c.f c.tau c.limits e.comp.sys a with
    | mk s1 r1 =>
      rw [hsim] at hr
      cases r1 with
      | error er => exact absurd trivial hr
      | ok st =>
        have hsim' : simulate c.p c.f c.tau c.limits e'.comp.sys a = (s1, .ok st) := by
          rcases hsys with hsys | hsys
          · rw [← hsys]
            exact hsim
          · exact simulate_anew h.uses h.conv h.parts h.currents _ _ a (fun y => h.actions y a hs) hsys s1 st hsim
        rw [hsim']
        dsimp only at hr ⊢
        cases hg : c.gen.getRef e.comp.ref st with
        | mk g1 o =>
          rw [hg] at hr
          cases o with
          | error er => exact absurd trivial hr
          | ok o =>
            obtain ⟨g1', hg', hh⟩ := h.refs.getRef _ _ st g1 o hw hg
            rw [hg']
            dsimp only at hr ⊢
            cases hm : m.check st with
            | error er =>
              rw [hm] at hr
              exact absurd trivial hr
            | ok d =>
              rw [hm] at hr
              dsimp only at hr ⊢
              cases hv : number (Reward.reward w st o d) with
              | error er =>
                rw [hv] at hr
                exact absurd trivial hr
              | ok v =>
                rw [hv] at hr
                dsimp only at hr ⊢
                cases hob : c.gen.getObs g1 st with
                | mk g2 ob =>
                  rw [hob] at hr
                  cases ob with
                  | error er => exact absurd trivial hr
                  | ok ob =>
                    obtain ⟨g2', hob', hw'⟩ := h.refs.getObs _ _ st g2 ob hh hob
                    rw [hob']
                    dsimp only
                    refine ⟨rfl, rfl, Or.inl ?_, ?_⟩
                    · rw [fc, fc]
                    · rw [fc, fc]
                      exact hw'

theorem run_kin (h : Reproduces c pw kinC near armed legal space n kinS kinP still kinG kinR warm hot shape)
    (ops : List (Core.Op (World S C P G τ) A))
    (hops : ∀ f, .setRef f ∈ ops ∨ .setReward f ∈ ops → ∀ c, KinWorld kinC kinS kinP kinG kinR c → KinWorld kinC kinS kinP kinG kinR (f c))
    (e : Core.Env (World S C P G τ) A (List ℝ) (List ℝ) (List ℝ) ℝ) (he : KinWorld kinC kinS kinP kinG kinR e.comp) :
    KinWorld kinC kinS kinP kinG kinR (Core.run (comps c w m idx) e ops).1.comp := by
  induction ops generalizing e with
  | nil => exact he
  | cons op ops ih =>
    refine ih (fun f hf => hops f ?_) _ (env_kin h e he op fun f hf => hops f ?_)
    · rcases hf with hf | hf
      · exact Or.inl (List.mem_cons_of_mem _ hf)
      · exact Or.inr (List.mem_cons_of_mem _ hf)
    · rcases hf with rfl | rfl
      · exact Or.inl (List.mem_cons_self ..)
      · exact Or.inr (List.mem_cons_self ..)

theorem run_alike (h : Reproduces c pw kinC near armed legal space n kinS kinP still kinG kinR warm hot shape) (acts : List A)
    (hs : ∀ a ∈ acts, space a) (e e' : Core.Env (World S C P G τ) A (List ℝ) (List ℝ) (List ℝ) ℝ)
    (ha : Alike c kinC still shape near warm e e') (hr : ∀ r ∈ (Core.run (comps c w m idx) e (acts.map .step)).2, ¬ Raised r.2) :
    (Core.run (comps c w m idx) e' (acts.map .step)).2 = (Core.run (comps c w m idx) e (acts.map .step)).2 := by
  induction acts generalizing e e' with
  | nil => rfl
  | cons a acts ih =>
    simp only [List.map_cons, Core.run, List.mem_cons, forall_eq_or_imp] at hr ⊢
    obtain ⟨h1, h2⟩ := step_alike h e e' ha a (hs a (List.mem_cons_self ..)) hr.1
    rw [h1, ih (fun b hb => hs b (List.mem_cons_of_mem _ hb)) _ _ h2 hr.2]

/-- C04 for an environment of which the modules forget their past: whatever has happened before (any calls, illegal actions,
exceptions, other seeds, new reference generators and reward functions), `reset(seed)` and the same actions give the same observations,
references, rewards and flags. -/
theorem c04_assembled_partial (h : Reproduces c pw kinC near armed legal space n kinS kinP still kinG kinR warm hot shape)
    (x x' : World S C P G τ) (hx : KinWorld kinC kinS kinP kinG kinR x) (hx' : KinWorld kinC kinS kinP kinG kinR x')
    (ops ops' : List (Core.Op (World S C P G τ) A))
    (hops : ∀ f, .setRef f ∈ ops ++ ops' ∨ .setReward f ∈ ops ++ ops' →
      ∀ c, KinWorld kinC kinS kinP kinG kinR c → KinWorld kinC kinS kinP kinG kinR (f c))
    (seed : ℕ) (acts : List A) (hs : ∀ a ∈ acts, space a)
    (hr : ∀ r ∈ (Core.run (comps c w m idx) (Core.run (comps c w m idx) (Core.Env.init (comps c w m idx) x) ops).1
      (.reset seed :: acts.map .step)).2, ¬ Raised r.2) :
    (Core.run (comps c w m idx) (Core.run (comps c w m idx) (Core.Env.init (comps c w m idx) x') ops').1 (.reset seed :: acts.map .step)).2 =
      (Core.run (comps c w m idx) (Core.run (comps c w m idx) (Core.Env.init (comps c w m idx) x) ops).1 (.reset seed :: acts.map .step)).2 := by
  have k1 := run_kin (w := w) (m := m) (idx := idx) h ops (fun f hf => hops f (hf.imp (List.mem_append_left _) (List.mem_append_left _)))
    (Core.Env.init (comps c w m idx) x) (by rw [Core.Env.init, fired_comp]; exact hx)
  have k2 := run_kin (w := w) (m := m) (idx := idx) h ops' (fun f hf => hops f (hf.imp (List.mem_append_right _) (List.mem_append_right _)))
    (Core.Env.init (comps c w m idx) x') (by rw [Core.Env.init, fired_comp]; exact hx')
  generalize (Core.run (comps c w m idx) (Core.Env.init (comps c w m idx) x) ops).1 = e at *
  generalize (Core.run (comps c w m idx) (Core.Env.init (comps c w m idx) x') ops').1 = e' at *
  simp only [Core.run, List.mem_cons, forall_eq_or_imp] at hr ⊢
  obtain ⟨h1, h2⟩ := reset_alike h e e' k1 k2 seed hr.1
  rw [h1, run_alike h acts hs _ _ h2 hr.2]

end loop

end

end GEM.Props
