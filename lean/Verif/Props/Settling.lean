import Verif.Proofs.Settling
import Verif.Props.ClosedLoop
import Verif.Props.InRange

/-!
# C129: current control settles at its reference
-/

set_option linter.unusedSectionVars false

namespace GEM.Props

noncomputable section

open Filter Topology GEM GEM.Core GEM.Sys GEM.Conv GEM.Motor GEM.Ctl GEM.Closed

/-! ## Statement -/

variable {κ A S C P : Type}

/-- One turn of a user's loop: the controller answers to the last observation, the physical system simulates a step with that action.
An exception ends the loop. -/
def turn {Y U : Type} (p : Parts ℝ Y U A S C P) (f : Frame ℝ Y U A) (tau : ℝ) (limits : List ℝ) (q : Controller κ (List ℝ × List ℝ) A)
    (ref : List ℝ) (x : (κ × St ℝ S C P) × Except Err (List ℝ)) : (κ × St ℝ S C P) × Except Err (List ℝ) :=
  match x.2 with
  | .error e => (x.1, .error e)
  | .ok o =>
    let c := q.control x.1.1 (o, ref)
    match c.2 with
    | .error e => ((c.1, x.1.2), .error e)
    | .ok a =>
      let s := simulate p f tau limits x.1.2 a
      ((c.1, s.1), s.2)

/-- The `n`-th entries of these observations tend to the value `r`, and their distance to it changes its sign at most once. -/
def SettlesAt (o : ℕ → List ℝ) (n : ℕ) (r : ℝ) : Prop :=
  Tendsto (fun k => Reward.entry (o k) n) atTop (𝓝 r) ∧
  ∃ k : WithTop ℕ, (∀ i : ℕ, (i : WithTop ℕ) < k → 0 ≤ (r - Reward.entry (o 0) n) * (r - Reward.entry (o i) n)) ∧
    ∀ i : ℕ, k ≤ i → (r - Reward.entry (o 0) n) * (r - Reward.entry (o i) n) ≤ 0

/-- In a step of length `tau` a solver with the configuration `ok` keeps the speed and moves the current by the factor `α` towards its
value at rest, for a winding with resistance `R + l * w` and induced voltage `psi * w`. -/
structure Winding (p : Parts ℝ (DcY ℝ) (List ℝ) A S C P) (ok : S → Prop) (R l psi tau α w : ℝ) : Prop where
  initial : ∀ s i t, ok s → ok (p.setInitial s ⟨[w], [i]⟩ t) ∧ p.solverY (p.setInitial s ⟨[w], [i]⟩ t) = ⟨[w], [i]⟩ ∧
    p.solverT (p.setInitial s ⟨[w], [i]⟩ t) = t
  time : ∀ s u t, ok s → ok (p.integrate s u t) ∧ p.solverT (p.integrate s u t) = t
  state : ∀ s x i, ok s → p.solverY s = ⟨[w], [i]⟩ → p.solverY (p.integrate s [x] (p.solverT s + tau))
    = ⟨[w], [(x - psi * w) / (R + l * w) + (i - (x - psi * w) / (R + l * w)) * α]⟩

/-- Controller, system and observation after both were reset with current `i`. -/
def started (p : Parts ℝ (DcY ℝ) (List ℝ) (List ℝ) S (CConv ℝ) P) (tq : List ℝ → ℝ) (limits : List ℝ) (w i : ℝ) (c : Current 1 5 ℝ)
    (st : St ℝ S (CConv ℝ) P) : (Current 1 5 ℝ × St ℝ S (CConv ℝ) P) × Except Err (List ℝ) :=
  let x := Sys.reset p (dcResetReport tq [0]) limits st ⟨[w], [i]⟩
  ((c.reset, x.1), x.2)

/-- From the reset of controller and system on, with the current `i` at first, no turn of the loop raises and the reported currents settle
at the reported reference.  States are speed, torque, current, voltage and supply voltage, with limits `nW`, `nT`, `nI`, `U`, `U`. -/
def CurrentSettles (p : Parts ℝ (DcY ℝ) (List ℝ) (List ℝ) S (CConv ℝ) P) (tq : List ℝ → ℝ) (tau nW nT nI U w r i : ℝ) (c : Current 1 5 ℝ)
    (st : St ℝ S (CConv ℝ) P) : Prop :=
  ∃ o : ℕ → List ℝ, (∀ k, ((turn p (dcFrame id tq [0] 1 1) tau [nW, nT, nI, U, U]
      (adapter ![nW, nT, nI, U, U] ![nI] (currentInner fun _ u => u) (contOut ![U])) [r / nI])^[k]
        (started p tq [nW, nT, nI, U, U] w i c st)).2 = .ok (o k)) ∧ SettlesAt o 2 (r / nI)

/-- Continuous converters without dead time: the lowest action is `-1` for four and `0` for two quadrants. -/
inductive Feeds : CConv ℝ → ℝ → Prop
  | four (f : CFour ℝ) (h0 : f.sub0.il = 0) (h1 : f.sub1.il = 0) (h2 : f.sub0.tau = f.sub1.tau) : Feeds (.four f) (-1)
  | two (f : CTwo ℝ) (h0 : f.il = 0) : Feeds (.two f) 0

/-! ## Converter and system -/

theorem clip_half (x : ℝ) : clip (1 / 2 * (x + 1)) 0 1 - clip (-(1 / 2) * (x - 1)) 0 1 = clip x (-1) 1 := by
  unfold clip
  rcases le_total x (-1) with h | h
  · rw [max_eq_right (by linarith), min_eq_left (by norm_num), max_eq_left (by linarith), min_eq_right (by linarith), max_eq_right h,
      min_eq_left (by norm_num)]
    norm_num
  rcases le_total x 1 with h' | h'
  · rw [max_eq_left (by linarith), min_eq_left (by linarith), max_eq_left (by linarith), min_eq_left (by linarith), max_eq_left h,
      min_eq_left h']
    ring
  · rw [max_eq_left (by linarith), min_eq_right (by linarith), max_eq_right (by linarith), min_eq_left (by norm_num), max_eq_left h,
      min_eq_right h']
    norm_num

theorem clip_inside01 {x : ℝ} (h0 : 0 ≤ x) (h1 : x ≤ 1) : clip x 0 1 = x := by
  rw [clip, max_eq_left h0, min_eq_left h1]

theorem clip_bounds2 (x lo hi : ℝ) (h : lo ≤ hi) : lo ≤ clip x lo hi ∧ clip x lo hi ≤ hi :=
  ⟨le_min (le_max_right _ _) h, min_le_right _ _⟩

theorem feeds_action {c : CConv ℝ} {lo : ℝ} (h : Feeds c lo) (x t : ℝ) : ∃ c1 T, c.setAction [x] t = (c1, .ok [T]) ∧ Feeds c1 lo ∧
    ∀ i, (∃ w, c1.iSup [i] = .ok w) ∧ ∀ t', c1.convert [i] t' = .ok [clip x lo 1] := by
  cases h with
  | four f h0 h1 h2 =>
    obtain ⟨tau, ⟨tau0, il0, a0⟩, ⟨tau1, il1, a1⟩⟩ := f
    simp only at h0 h1 h2
    subst h0 h1 h2
    refine ⟨((CConv.four ⟨tau, ⟨tau0, 0, a0⟩, ⟨tau0, 0, a1⟩⟩).setAction [x] t).1, t + tau0, ?_, .four _ rfl rfl rfl,
      fun i => ⟨⟨_, rfl⟩, fun t' => ?_⟩⟩
    · simp [CConv.setAction, CFour.setAction, sortedSet]
    · have m0 := clip_bounds2 (1 / 2 * (x + 1)) 0 1 zero_le_one
      have m1 := clip_bounds2 (-(1 / 2) * (x - 1)) 0 1 zero_le_one
      rw [← clip_half]
      simp only [CConv.setAction, CFour.setAction, CConv.convert, CFour.convert, CTwo.convert, CTwo.setAction, CTwo.interlock,
        mul_zero, sub_zero, Prod.map]
      rw [clip_inside01 m0.1 m0.2, clip_inside01 m1.1 m1.2]
  | two f h0 =>
    obtain ⟨tau, il, a⟩ := f
    simp only at h0
    subst h0
    refine ⟨((CConv.two ⟨tau, 0, a⟩).setAction [x] t).1, t + tau, rfl, .two _ rfl, fun i => ⟨⟨_, rfl⟩, fun t' => ?_⟩⟩
    have m0 := clip_bounds2 x 0 1 zero_le_one
    simp only [CConv.setAction, CConv.convert, CTwo.convert, CTwo.setAction, CTwo.interlock, mul_zero, sub_zero, Prod.map]
    rw [clip_inside01 m0.1 m0.2]

theorem feeds_reset {c : CConv ℝ} {lo : ℝ} (h : Feeds c lo) : Feeds c.reset.1 lo ∧ ∃ u, c.reset.2 = [u] := by
  cases h with
  | four f h0 h1 h2 => exact ⟨.four _ h0 h1 h2, _, rfl⟩
  | two f h0 => exact ⟨.two _ h0, _, rfl⟩

/-- A step of the system with action `x`. -/
theorem winding_step {p : Parts ℝ (DcY ℝ) (List ℝ) (List ℝ) S (CConv ℝ) P} {R l psi tau α w U lo : ℝ} (hu : Uses p contPower) (hi : Ideal p U)
    {ok : S → Prop} (ht : Winding p ok R l psi tau α w) (tq : List ℝ → ℝ) (limits : List ℝ) {st : St ℝ S (CConv ℝ) P} (hc : Feeds st.conv lo)
    (hok : ok st.solver) {i : ℝ} (hy : p.solverY st.solver = ⟨[w], [i]⟩) (hT : p.solverT st.solver = st.t) (x : ℝ) :
    ∃ st', let v := clip x lo 1 * U
      let j := (v - psi * w) / (R + l * w) + (i - (v - psi * w) / (R + l * w)) * α
      simulate p (dcFrame id tq [0] 1 1) tau limits st [x] = (st', divLimits [w, tq [j], j, v, U] limits) ∧
      Feeds st'.conv lo ∧ ok st'.solver ∧ p.solverY st'.solver = ⟨[w], [j]⟩ ∧ p.solverT st'.solver = st'.t := by
  obtain ⟨c1, T, e1, e2, e3⟩ := feeds_action hc x st.t
  obtain ⟨⟨a, e4⟩, e5⟩ := e3 i
  obtain ⟨u1, u2, u3, u4⟩ := hu
  set v := clip x lo 1 * U with hv
  have z3 := ht.state st.solver v i hok hy
  rw [hT] at z3
  have hset : p.setAction st.conv [x] st.t = (c1, .ok [T]) := by rw [u1]; exact e1
  have hact : ∀ y : DcY ℝ, (dcFrame id tq [0] 1 1 : Frame ℝ (DcY ℝ) (List ℝ) (List ℝ)).action y [x] = [x] := fun _ => rfl
  have hpiece : piece p (dcFrame id tq [0] 1 1) (dcFrame id tq [0] 1 1 : Frame ℝ (DcY ℝ) (List ℝ) (List ℝ)).lastU { st with conv := c1 }
      (st.t + tau)
      = ({ st with conv := c1, supply := (p.getVoltage st.supply st.t a).1, solver := p.integrate st.solver [v] (st.t + tau) },
        .ok ([v], [U])) := by
    unfold piece
    have hin : (dcFrame id tq [0] 1 1 : Frame ℝ (DcY ℝ) (List ℝ) (List ℝ)).iIn (p.solverY st.solver) = [i] := by rw [hy]; rfl
    have hsup : p.iSup c1 [i] = .ok a := by rw [u3]; exact e4
    have hconv : p.convert c1 [i] (p.solverT st.solver) = (c1, .ok [clip x lo 1]) := by rw [u2]; exact Prod.ext rfl (e5 _)
    have hvol := hi.voltage st.supply st.t a
    have hprod : products [clip x lo 1] [U] = [v] := by simp [products, hv]
    simp only [hin, hsup, hconv, hvol, hprod]
    rfl
  refine ⟨⟨st.t + tau, st.k + 1, p.integrate st.solver [v] (st.t + tau), c1, (p.getVoltage st.supply st.t a).1⟩, ?_, e2, (ht.time _ _ _ hok).1, z3, (ht.time _ _ _ hok).2⟩
  unfold simulate
  simp only [hact, hset, List.dropLast_singleton, pieces, Call.bind, hpiece, (ht.time _ _ _ hok).2]
  rw [z3]
  rfl

/-! ## The controller -/

/-- The tuned PI current controller of a DC motor with one current, at index 2 of the state: `ff` are the factor of the speed, the
inductance and the flux of the feedforward stage if decoupling is on; the voltages lie in `[lo * U, U]`. -/
structure TunedCurrent (c : Current 1 5 ℝ) (L tau a lo U : ℝ) (ff : Option (ℝ × ℝ × ℝ)) : Prop where
  base : ∃ int, c.base = { Base.tuneCurrent .PI (fun _ => L) tau a (fun _ => 2) with integrator := int }
  ff : c.ff = ff.map fun f => emf f.1 (fun _ => f.2.1) (fun _ => f.2.2) (fun _ => 2) 0
  clipping : c.clipping = .tuneAbsolute (fun _ => U) (fun _ => lo) (fun _ => 1) 0
  tau : c.tau = tau
  idx : c.idx = fun _ => 2

/-- the feedforward of a controller at speed `w` and current `i` -/
def ffValue (ff : Option (ℝ × ℝ × ℝ)) (w i : ℝ) : ℝ :=
  match ff with
  | none => 0
  | some f => (f.2.1 * i + f.2.2) * (w * f.1)

/-- its part proportional to the current -/
def ffSlope (ff : Option (ℝ × ℝ × ℝ)) (w : ℝ) : ℝ :=
  match ff with
  | none => 0
  | some f => f.2.1 * (w * f.1)

theorem ffValue_split (ff : Option (ℝ × ℝ × ℝ)) (w i r : ℝ) : ffValue ff w i = ffValue ff w r - ffSlope ff w * (r - i) := by
  cases ff with
  | none => simp [ffValue, ffSlope]
  | some f => simp only [ffValue, ffSlope]; ring

/-- the voltage that the controller asks for: error, integrator, feedforward -/
def asked (L tau a : ℝ) (ff : Option (ℝ × ℝ × ℝ)) (w r i I : ℝ) : ℝ :=
  L / (tau * a) * (r - i) + L / (tau * a) / (tau * a ^ 2) * I + ffValue ff w i

theorem current_answer {c : Current 1 5 ℝ} {L tau a lo U : ℝ} {ff : Option (ℝ × ℝ × ℝ)} (h : TunedCurrent c L tau a lo U ff) {I : ℝ}
    (hI : c.base.integrator = some fun _ => I) (hg : 0 ≤ L / (tau * a) / (tau * a ^ 2)) (s : Fin 5 → ℝ) (r : Fin 1 → ℝ) :
    ∃ c', c.controlTop (fun _ u => u) s r = (c', .ok fun _ => asked L tau a ff (s 0) (r 0) (s 2) I) ∧ TunedCurrent c' L tau a lo U ff ∧
      c'.base.integrator = some fun _ => I + tau * (r 0 - s 2) *
        (if asked L tau a ff (s 0) (r 0) (s 2) I - clip (asked L tau a ff (s 0) (r 0) (s 2) I) (lo * U) U = 0 then 1 else 0) := by
  obtain ⟨⟨int, h1⟩, h2, h3, h4, h5⟩ := h
  obtain ⟨base, ffs, cl, ctau, cidx, cv⟩ := c
  simp only at h1 h2 h3 h4 h5 hI
  subst h1 h2 h3 h4 h5
  simp only at hI
  subst hI
  have hraw : ∀ v, Current.raw (⟨{ Base.tuneCurrent .PI (fun _ => L) ctau a (fun _ => 2) with integrator := some fun _ => I },
      ff.map fun f => emf f.1 (fun _ => f.2.1) (fun _ => f.2.2) (fun _ => 2) 0, .tuneAbsolute (fun _ => U) (fun _ => lo) (fun _ => 1) 0, ctau,
      fun _ => 2, v⟩ : Current 1 5 ℝ) s r = fun _ => asked L ctau a ff (s 0) (r 0) (s 2) I := by
    intro v
    funext k
    obtain rfl : k = 0 := Subsingleton.elim _ _
    cases ff with
    | none =>
      simp [Current.raw, Base.control, Base.tuneCurrent, Base.pPart, Base.iPart, Base.error, Base.integ, asked, ffValue, max_eq_left hg]
    | some f =>
      simp [Current.raw, Base.control, Base.tuneCurrent, Base.pPart, Base.iPart, Base.error, Base.integ, asked, ffValue, emf,
        max_eq_left hg]
  have hclip : ∀ v : ℝ, Clip.difference (.tuneAbsolute (fun _ => U) (fun _ => lo) (fun _ => 1) 0 : Clip 1 ℝ) (fun _ => v)
      = fun _ => v - clip v (lo * U) U := by
    intro v
    funext k
    simp [Clip.difference, Clip.tuneAbsolute, Clip.call]
  refine ⟨_, Prod.ext rfl ?_, ⟨⟨_, rfl⟩, rfl, rfl, rfl, rfl⟩, ?_⟩
  · simp only [Current.controlTop, Current.control]
    rw [hraw]
    simp [Base.integrate, Base.control, Base.tuneCurrent, Kind.integrates, Except.map]
  · simp only [Current.controlTop, Current.control]
    rw [hraw, hclip]
    simp [Base.integrate, Base.control, Base.tuneCurrent, Kind.integrates, Except.map, Current.store, antiWindup]
    funext k
    obtain rfl : k = 0 := Subsingleton.elim _ _
    rfl

/-! ## The loop -/

/-- System, controller and observation after some turns: current `i`, integrator `I`. -/
structure At (p : Parts ℝ (DcY ℝ) (List ℝ) (List ℝ) S (CConv ℝ) P) (ok : S → Prop) (L tau a lo U w nW nI : ℝ) (ff : Option (ℝ × ℝ × ℝ))
    (x : (Current 1 5 ℝ × St ℝ S (CConv ℝ) P) × Except Err (List ℝ)) (i I : ℝ) : Prop where
  tuned : TunedCurrent x.1.1 L tau a lo U ff
  integ : x.1.1.base.integrator = some fun _ => I
  conv : Feeds x.1.2.conv lo
  okay : ok x.1.2.solver
  state : p.solverY x.1.2.solver = ⟨[w], [i]⟩
  time : p.solverT x.1.2.solver = x.1.2.t
  obs : ∃ t u v, x.2 = .ok [w / nW, t, i / nI, u, v]

/-- Current and integrator after a turn: the voltage `V` that the controller asks for is cut to `[lo, hi]`; the integrator takes the error
in if nothing is cut off. -/
def pushed (Z E α tau lo hi r : ℝ) (V : ℝ × ℝ → ℝ) (s : ℝ × ℝ) : ℝ × ℝ :=
  let v := clip (V s) lo hi
  ((v - E) / Z + (s.1 - (v - E) / Z) * α, s.2 + tau * (r - s.1) * (if V s - v = 0 then 1 else 0))

/-- `pushed` for the controllers of the package -/
def turned (R l psi α L tau a lo U w r : ℝ) (ff : Option (ℝ × ℝ × ℝ)) : ℝ × ℝ → ℝ × ℝ :=
  pushed (R + l * w) (psi * w) α tau (lo * U) U r fun s => asked L tau a ff w r s.1 s.2

theorem clip_scale (x lo : ℝ) {U : ℝ} (hU : 0 < U) : clip (x / U) lo 1 * U = clip x (lo * U) U := by
  unfold clip
  rw [min_mul_of_nonneg _ _ hU.le, max_mul_of_nonneg _ _ hU.le, div_mul_cancel₀ _ hU.ne', one_mul]

theorem turn_at {p : Parts ℝ (DcY ℝ) (List ℝ) (List ℝ) S (CConv ℝ) P} {R l psi L tau a α w U lo nW nT nI r : ℝ} {ff : Option (ℝ × ℝ × ℝ)}
    (hu : Uses p contPower) (hi : Ideal p U) {ok : S → Prop} (hp : Winding p ok R l psi tau α w) (tq : List ℝ → ℝ) (hU : 0 < U) (hnW : nW ≠ 0) (hnI : nI ≠ 0)
    (hg : 0 ≤ L / (tau * a) / (tau * a ^ 2))
    {x : (Current 1 5 ℝ × St ℝ S (CConv ℝ) P) × Except Err (List ℝ)} {i I : ℝ} (h : At p ok L tau a lo U w nW nI ff x i I) :
    At p ok L tau a lo U w nW nI ff (turn p (dcFrame id tq [0] 1 1) tau [nW, nT, nI, U, U]
        (adapter ![nW, nT, nI, U, U] ![nI] (currentInner fun _ u => u) (contOut ![U])) [r / nI] x)
      (turned R l psi α L tau a lo U w r ff (i, I)).1 (turned R l psi α L tau a lo U w r ff (i, I)).2 := by
  obtain ⟨⟨c, st⟩, o⟩ := x
  obtain ⟨h1, h2, h3, h3', h4, h5, t, u, v, h6⟩ := h
  simp only at h1 h2 h3 h3' h4 h5 h6
  subst h6
  have hin := current_answer h1 h2 hg (inputStage ![nW, nT, nI, U, U] ![nI] (vec 5 [w / nW, t, i / nI, u, v]) (vec 1 [r / nI])).1
    (inputStage ![nW, nT, nI, U, U] ![nI] (vec 5 [w / nW, t, i / nI, u, v]) (vec 1 [r / nI])).2
  have s0 : (inputStage ![nW, nT, nI, U, U] ![nI] (vec 5 [w / nW, t, i / nI, u, v]) (vec 1 [r / nI])).1 0 = w := by
    simp [inputStage, vec, hnW]
  have s2 : (inputStage ![nW, nT, nI, U, U] ![nI] (vec 5 [w / nW, t, i / nI, u, v]) (vec 1 [r / nI])).1 2 = i := by
    simp [inputStage, vec, hnI]
  have r0 : (inputStage ![nW, nT, nI, U, U] ![nI] (vec 5 [w / nW, t, i / nI, u, v]) (vec 1 [r / nI])).2 0 = r := by
    simp [inputStage, vec, hnI]
  rw [s0, s2, r0] at hin
  obtain ⟨c', e1, e2, e3⟩ := hin
  set V := asked L tau a ff w r i I with hV
  have hctl : (adapter ![nW, nT, nI, U, U] ![nI] (currentInner fun _ u => u) (contOut ![U])).control c ([w / nW, t, i / nI, u, v], [r / nI])
      = (c', .ok [V / U]) := by
    have e1' : (currentInner fun (_ : Fin 5 → ℝ) (u : Fin 1 → ℝ) => u).control c
        (inputStage ![nW, nT, nI, U, U] ![nI] (vec 5 [w / nW, t, i / nI, u, v]) (vec 1 [r / nI])).1
        (inputStage ![nW, nT, nI, U, U] ![nI] (vec 5 [w / nW, t, i / nI, u, v]) (vec 1 [r / nI])).2 = (c', .ok fun _ => V) := e1
    have hlen : ([w / nW, t, i / nI, u, v] : List ℝ).length = 5 ∧ ([r / nI] : List ℝ).length = 1 := ⟨rfl, rfl⟩
    simp only [adapter, hlen, and_self, if_true, e1', Except.bind, contOut]
    simp [contOutput]
  obtain ⟨st', f1, f2, f2', f3, f4⟩ := winding_step hu hi hp tq [nW, nT, nI, U, U] h3 h3' h4 h5 (V / U)
  rw [clip_scale _ _ hU] at f1 f3
  have hturn : turn p (dcFrame id tq [0] 1 1) tau [nW, nT, nI, U, U]
      (adapter ![nW, nT, nI, U, U] ![nI] (currentInner fun _ u => u) (contOut ![U])) [r / nI] ((c, st), .ok [w / nW, t, i / nI, u, v])
      = ((c', st'), divLimits [w, tq [(turned R l psi α L tau a lo U w r ff (i, I)).1], (turned R l psi α L tau a lo U w r ff (i, I)).1,
          clip V (lo * U) U, U] [nW, nT, nI, U, U]) := by
    simp only [turn, hctl, f1]
    rfl
  rw [hturn]
  exact ⟨e2, e3, f2, f2', f3, f4, _, _, _, rfl⟩

/-- What current and integrator do in the loop is a step of Proofs/Settling.lean. -/
theorem pushed_next {Z E α tau lo hi r g ki f : ℝ} (hZ : 0 < Z) (hlo : lo < hi) {V : ℝ × ℝ → ℝ}
    (hV : ∀ s, V s = g * (r - s.1) + ki * s.2 + f) (s : ℝ × ℝ) :
    let v0 := Z * r + E
    let view := fun s : ℝ × ℝ => (r - s.1, ki * s.2 + f - v0)
    Settle.Next α ((1 - α) / Z) g (ki * tau) (v0 - lo) (hi - v0) (view s) (view (pushed Z E α tau lo hi r V s)) := by
  intro v0 view
  obtain ⟨i, I⟩ := s
  have hV : V (i, I) = g * (view (i, I)).1 + (view (i, I)).2 + v0 := by
    rw [hV]
    simp only [view]
    ring
  have hstep : ∀ v : ℝ, r - ((v - E) / Z + (i - (v - E) / Z) * α) = α * (view (i, I)).1 - (1 - α) / Z * (v - v0) := by
    intro v
    simp only [view, v0]
    field_simp
    ring
  refine ⟨fun h1 h2 => ?_, fun h1 => ?_, fun h1 => ?_⟩
  · have hc : clip (V (i, I)) lo hi = V (i, I) := by
      rw [clip, max_eq_left (by rw [hV]; linarith), min_eq_left (by rw [hV]; linarith)]
    have ht : pushed Z E α tau lo hi r V (i, I) = ((V (i, I) - E) / Z + (i - (V (i, I) - E) / Z) * α, I + tau * (r - i) * 1) := by
      simp only [pushed, hc, sub_self, if_true]
    rw [ht]
    refine Prod.ext ?_ ?_
    · show r - _ = _
      rw [hstep, hV]
      ring
    · simp only [view]
      ring
  · have hc : clip (V (i, I)) lo hi = hi := by
      rw [clip, max_eq_left (by rw [hV]; linarith), min_eq_right (by rw [hV]; linarith)]
    have ht : pushed Z E α tau lo hi r V (i, I) = ((hi - E) / Z + (i - (hi - E) / Z) * α, I + tau * (r - i) * 0) := by
      simp only [pushed, hc]
      rw [if_neg (by rw [hV]; intro h; linarith)]
    rw [ht]
    refine Prod.ext ?_ ?_
    · show r - _ = _
      rw [hstep]
    · simp only [view]
      ring
  · have hc : clip (V (i, I)) lo hi = lo := by
      rw [clip, max_eq_right (by rw [hV]; linarith), min_eq_left hlo.le]
    have ht : pushed Z E α tau lo hi r V (i, I) = ((lo - E) / Z + (i - (lo - E) / Z) * α, I + tau * (r - i) * 0) := by
      simp only [pushed, hc]
      rw [if_neg (by rw [hV]; intro h; linarith)]
    rw [ht]
    refine Prod.ext ?_ ?_
    · show r - _ = _
      rw [hstep]
      ring
    · simp only [view]
      ring

/-- Currents that move in this way settle. -/
theorem pushed_settles {Z E α tau lo hi r g ki f nI i : ℝ} (hZ : 0 < Z) {V : ℝ × ℝ → ℝ} (hV : ∀ s, V s = g * (r - s.1) + ki * s.2 + f)
    (hnI : nI ≠ 0) (hα : 0 < α) (hα' : α < 1) (hκ : 0 < ki * tau) (hg : ki * tau ≤ g) (hslow : (1 - α) / Z * g ≤ α)
    (hdamp : 4 * ((1 - α) / Z * (ki * tau)) ≤ (1 - α + (1 - α) / Z * g) ^ 2) (hreach : lo < Z * r + E ∧ Z * r + E < hi)
    (hf : lo ≤ f ∧ f ≤ hi) {o : ℕ → List ℝ}
    (ho : ∀ k, Reward.entry (o k) 2 = ((pushed Z E α tau lo hi r V)^[k] (i, 0)).1 / nI) : SettlesAt o 2 (r / nI) := by
  set p := pushed Z E α tau lo hi r V with hp
  set v0 := Z * r + E with hv0
  have hβ : 0 < (1 - α) / Z := div_pos (by linarith) hZ
  have hg0 : 0 < g := lt_of_lt_of_le hκ hg
  obtain ⟨v, hv, hv', hroot⟩ := Settle.root_exists hα' hβ hg0 hκ hslow hdamp
  have loop : Settle.Loop α ((1 - α) / Z) g (ki * tau) (v0 - lo) (hi - v0) v :=
    ⟨hα, hα', hβ, hg0, hκ, hg, by linarith [hreach.1], by linarith [hreach.2], hslow, hv, hv', hroot⟩
  obtain ⟨s1, -, k, s2, s3⟩ := Settle.settles
    (s := fun k => (r - (p^[k] (i, 0)).1, ki * (p^[k] (i, 0)).2 + f - v0)) loop
    (fun k => by
      have := pushed_next (E := E) (α := α) (tau := tau) hZ (hreach.1.trans hreach.2) hV (p^[k] (i, 0))
      rw [Function.iterate_succ_apply' p k]
      exact this)
    (by
      simp only [Function.iterate_zero, id, mul_zero]
      constructor <;> linarith [hf.1, hf.2])
  have e : ∀ j, (r / nI - Reward.entry (o 0) 2) * (r / nI - Reward.entry (o j) 2) = ((r - i) * (r - (p^[j] (i, 0)).1)) / nI ^ 2 := by
    intro j
    rw [ho, ho]
    simp only [Function.iterate_zero, id]
    field_simp
  refine ⟨?_, k, fun j hj => ?_, fun j hj => ?_⟩
  · have : Tendsto (fun k => (r - (r - (p^[k] (i, 0)).1)) / nI) atTop (𝓝 ((r - 0) / nI)) := (s1.const_sub r).div_const nI
    simp only [sub_sub_cancel, sub_zero] at this
    refine this.congr fun k => ?_
    rw [ho]
  · rw [e]
    exact div_nonneg (s2 j hj) (sq_nonneg _)
  · rw [e]
    exact div_nonpos_of_nonpos_of_nonneg (s3 j hj) (sq_nonneg _)

theorem started_at {p : Parts ℝ (DcY ℝ) (List ℝ) (List ℝ) S (CConv ℝ) P} {R l psi L tau a α w U lo nW nT nI : ℝ} {ff : Option (ℝ × ℝ × ℝ)}
    (hu : Uses p contPower) (hi : Ideal p U) {ok : S → Prop} (hp : Winding p ok R l psi tau α w) (tq : List ℝ → ℝ)
    {c : Current 1 5 ℝ} (hc : TunedCurrent c L tau a lo U ff) {st : St ℝ S (CConv ℝ) P} (hst : Feeds st.conv lo) (hok : ok st.solver) (i : ℝ) :
    At p ok L tau a lo U w nW nI ff (started p tq [nW, nT, nI, U, U] w i c st) i 0 := by
  obtain ⟨u1, u2, u3, u4⟩ := hu
  obtain ⟨f1, u, f2⟩ := feeds_reset hst
  have hrc : p.convReset st.conv = (st.conv.reset.1, [u]) := by rw [u4, ← f2]; rfl
  obtain ⟨i1, i2, i3⟩ := hp.initial st.solver i 0 hok
  have hr : Sys.reset p (dcResetReport tq [0]) [nW, nT, nI, U, U] st ⟨[w], [i]⟩
      = (⟨0, 0, p.setInitial st.solver ⟨[w], [i]⟩ 0, st.conv.reset.1, (p.supplyReset st.supply).1⟩,
        .ok [w / nW, tq [i] / nT, i / nI, u * U / U, U / U]) := by
    unfold Sys.reset
    simp only [hrc, hi.reset]
    rfl
  obtain ⟨⟨int, h1⟩, h2, h3, h4, h5⟩ := hc
  refine ⟨⟨⟨some fun _ => 0, ?_⟩, h2, h3, h4, h5⟩, ?_, ?_, ?_, ?_, ?_, ?_⟩
  · show c.base.reset = _
    rw [h1]
    rfl
  · show c.base.reset.integrator = _
    rw [h1]
    rfl
  · simp only [started, hr]
    exact f1
  · simp only [started, hr]
    exact i1
  · simp only [started, hr]
    exact i2
  · simp only [started, hr]
    exact i3
  · simp only [started, hr]
    exact ⟨_, _, _, rfl⟩

/-! ## The property -/

/-- C129 (general): in closed loop with the tuned current controller, the reported current of a DC drive at constant speed tends to
its reference and crosses it at most once, whatever the current is at the start and although voltages are limited.  The reference must
be reachable with a voltage between the limits, the loop must be damped. -/
theorem c129_settles {p : Parts ℝ (DcY ℝ) (List ℝ) (List ℝ) S (CConv ℝ) P} {R l psi L tau a α w U lo nW nT nI r : ℝ}
    {ff : Option (ℝ × ℝ × ℝ)} (hu : Uses p contPower) (hi : Ideal p U) {ok : S → Prop} (hp : Winding p ok R l psi tau α w) (tq : List ℝ → ℝ)
    (hU : 0 < U) (hnW : nW ≠ 0) (hnI : nI ≠ 0) (hL : 0 < L) (hτ : 0 < tau) (ha : 0 < a) (hR : 0 < R + l * w) (hα : 0 < α) (hα' : α < 1)
    (hP : L / (tau * a) / a ^ 2 ≤ L / (tau * a) - ffSlope ff w)
    (hslow : (1 - α) / (R + l * w) * (L / (tau * a) - ffSlope ff w) ≤ α)
    (hdamp : 4 * ((1 - α) / (R + l * w) * (L / (tau * a) / a ^ 2))
      ≤ (1 - α + (1 - α) / (R + l * w) * (L / (tau * a) - ffSlope ff w)) ^ 2)
    (hreach : lo * U < (R + l * w) * r + psi * w ∧ (R + l * w) * r + psi * w < U) (hff : lo * U ≤ ffValue ff w r ∧ ffValue ff w r ≤ U)
    {c : Current 1 5 ℝ} (hc : TunedCurrent c L tau a lo U ff) {st : St ℝ S (CConv ℝ) P} (hst : Feeds st.conv lo) (hok : ok st.solver) (i : ℝ) :
    CurrentSettles p tq tau nW nT nI U w r i c st := by
  have hp0 : 0 < L / (tau * a) := by positivity
  have hki : 0 < L / (tau * a) / (tau * a ^ 2) := by positivity
  have hκ : L / (tau * a) / (tau * a ^ 2) * tau = L / (tau * a) / a ^ 2 := by field_simp
  have all : ∀ k, At p ok L tau a lo U w nW nI ff ((turn p (dcFrame id tq [0] 1 1) tau [nW, nT, nI, U, U]
      (adapter ![nW, nT, nI, U, U] ![nI] (currentInner fun _ u => u) (contOut ![U])) [r / nI])^[k]
        (started p tq [nW, nT, nI, U, U] w i c st))
      ((turned R l psi α L tau a lo U w r ff)^[k] (i, 0)).1 ((turned R l psi α L tau a lo U w r ff)^[k] (i, 0)).2 := by
    intro k
    induction k with
    | zero => exact started_at hu hi hp tq hc hst hok i
    | succ k ih =>
      rw [Function.iterate_succ_apply', Function.iterate_succ_apply']
      exact turn_at hu hi hp tq hU hnW hnI hki.le ih
  choose t u v hobs using fun k => (all k).obs
  refine ⟨_, hobs, pushed_settles (g := L / (tau * a) - ffSlope ff w) (ki := L / (tau * a) / (tau * a ^ 2)) (f := ffValue ff w r) hR
    (fun s => ?_) hnI hα hα' (by positivity) (by rw [hκ]; exact hP) hslow (by rw [hκ]; exact hdamp) hreach hff (fun k => rfl)⟩
  simp only [asked, ffValue_split ff w s.1 r]
  ring

/-! ## Motors and solvers -/

/-- The electrical equation of a motor with one current. -/
def OneWinding (el : (Fin 1 → ℝ) → (Fin 1 → ℝ) → ℝ → Fin 1 → ℝ) (R l psi L : ℝ) : Prop :=
  ∀ s u w, el s u w 0 = (u 0 - psi * w - (R + l * w) * s 0) / L

theorem permEx_winding (mp : PermExParams ℝ) : OneWinding (permExOde mp) mp.ra 0 mp.psiE mp.la := by
  intro s u w
  simp [permExOde, permExConstants, rowsDiv, Matrix.mulVec, dotProduct, Fin.sum_univ_three]
  ring

theorem series_winding (mp : DcParams ℝ) : OneWinding (seriesOde mp) (mp.ra + mp.re) mp.lePrime 0 (mp.la + mp.le) := by
  intro s u w
  rw [seriesOde_eq]
  simp only [Matrix.cons_val_zero]
  ring

/-- The solver moves along exact motions of a drive at constant speed. -/
structure TracksWinding (p : Parts ℝ (DcY ℝ) (List ℝ) A S C P) (torque : (Fin 1 → ℝ) → ℝ) (el : (Fin 1 → ℝ) → (Fin 1 → ℝ) → ℝ → Fin 1 → ℝ) :
    Prop where
  initial : ∀ s y t, p.solverY (p.setInitial s y t) = y ∧ p.solverT (p.setInitial s y t) = t
  time : ∀ s u t, p.solverT (p.integrate s u t) = t
  state : ∀ s x t w i, p.solverY s = ⟨[w], [i]⟩ → p.solverT s ≤ t → ∃ z : ℝ → Fin 2 → ℝ,
    Runs (systemEquation constMech torque el 0 none) (fun _ => ![x]) z ∧ z 0 = ![w, i] ∧
    p.solverY (p.integrate s [x] t) = ⟨[z (t - p.solverT s) 0], [z (t - p.solverT s) 1]⟩

theorem winding_exact {p : Parts ℝ (DcY ℝ) (List ℝ) A S C P} {torque : (Fin 1 → ℝ) → ℝ} {el : (Fin 1 → ℝ) → (Fin 1 → ℝ) → ℝ → Fin 1 → ℝ}
    {R l psi L tau w : ℝ} (he : OneWinding el R l psi L) (hL : L ≠ 0) (hZ : R + l * w ≠ 0) (hτ : 0 ≤ tau) (ht : TracksWinding p torque el) :
    Winding p (fun _ => True) R l psi tau (Real.exp (-((R + l * w) / L) * tau)) w := by
  refine ⟨fun s i t _ => ⟨trivial, ht.initial _ _ _⟩, fun s u t _ => ⟨trivial, ht.time _ _ _⟩, fun s x i _ hy => ?_⟩
  obtain ⟨z, hz, h0, he'⟩ := ht.state s x (p.solverT s + tau) w i hy (by linarith)
  rw [he', add_sub_cancel_left]
  have hw : ∀ t, 0 ≤ t → z t 0 = w := fun t ht => by rw [const_speed hz ht, h0]; rfl
  set Z := R + l * w with hZd
  set E := (x - psi * w) / Z with hE
  have d1 : ∀ t, 0 ≤ t → HasDerivWithinAt (fun t => z t 1) (-(Z / L) * (z t 1 - E)) (Set.Ici t) t := by
    intro t ht
    have := (hz 1).2 t ht
    have e : (systemEquation constMech torque el 0 none t (z t) ![x] : Fin 2 → ℝ) 1 = el ![z t 1] ![x] (z t 0) 0 := by
      have h1 : (fun i : Fin 1 => z t (Fin.natAdd 1 i)) = ![z t 1] := by funext k; obtain rfl : k = 0 := Subsingleton.elim _ _; rfl
      show el (fun i : Fin 1 => z t (Fin.natAdd 1 i)) ![x] (z t 0) 0 = _
      rw [h1]
    rw [e, he, hw t ht] at this
    refine this.congr_deriv ?_
    simp only [Matrix.cons_val_zero, hE]
    rw [← hZd]
    field_simp
    ring
  have key := stays_const (f := fun t => (z t 1 - E) * Real.exp (Z / L * t))
    (((hz 1).1.sub continuousOn_const).mul (by fun_prop)) (fun t ht => by
      have e1 : HasDerivWithinAt (fun t : ℝ => Real.exp (Z / L * t)) (Real.exp (Z / L * t) * (Z / L)) (Set.Ici t) t := by
        have := ((hasDerivAt_id t).const_mul (Z / L)).exp
        simpa using this.hasDerivWithinAt
      refine (((d1 t ht).sub_const _).mul e1).congr_deriv ?_
      ring) hτ
  simp only [mul_zero, Real.exp_zero, mul_one, h0] at key
  have hk : (Real.exp (Z / L * tau))⁻¹ = Real.exp (-(Z / L) * tau) := by rw [← Real.exp_neg]; congr 1; ring
  have hi : z tau 1 - E = (i - E) * Real.exp (-(Z / L) * tau) := by
    rw [← hk, ← div_eq_mul_inv, eq_div_iff (Real.exp_ne_zero _), key]
    rfl
  rw [hw tau hτ, show z tau 1 = E + (i - E) * Real.exp (-(Z / L) * tau) by linarith]

/-- The array that the solver gets, and the right hand side of the system. -/
def windingRhs (torque : (Fin 1 → ℝ) → ℝ) (el : (Fin 1 → ℝ) → (Fin 1 → ℝ) → ℝ → Fin 1 → ℝ) (u : List ℝ) (t : ℝ) (z : Fin 2 → ℝ) : Fin 2 → ℝ :=
  systemEquation constMech torque el 0 none t z ![Reward.entry u 0]

/-- `EulerSolver` as the solver of a drive at constant speed. -/
structure EulerWinding (p : Parts ℝ (DcY ℝ) (List ℝ) A (Solver.Euler ℝ (Fin 2 → ℝ)) C P) (torque : (Fin 1 → ℝ) → ℝ)
    (el : (Fin 1 → ℝ) → (Fin 1 → ℝ) → ℝ → Fin 1 → ℝ) : Prop where
  driven : EulerDriven p (fun y => ![Reward.entry y.mech 0, Reward.entry y.motor 0]) (windingRhs torque el)
  y : ∀ s, p.solverY s = ⟨[s.y 0], [s.y 1]⟩
  t : ∀ s, p.solverT s = s.t

theorem euler_loop {torque : (Fin 1 → ℝ) → ℝ} {el : (Fin 1 → ℝ) → (Fin 1 → ℝ) → ℝ → Fin 1 → ℝ} {R l psi L w : ℝ}
    (he : OneWinding el R l psi L) (hL : L ≠ 0) (hZ : R + l * w ≠ 0) (x h : ℝ) (n : ℕ) : ∀ (t i : ℝ),
    Solver.nstepsLoop (windingRhs torque el [x]) h n t ![w, i]
      = ![w, (x - psi * w) / (R + l * w) + (i - (x - psi * w) / (R + l * w)) * (1 - (R + l * w) / L * h) ^ n] := by
  induction n with
  | zero => intro t i; simp [Solver.nstepsLoop]
  | succ n ih =>
    intro t i
    have e : (![w, i] : Fin 2 → ℝ) + h • windingRhs torque el [x] (t + h) ![w, i]
        = ![w, i + h * ((x - psi * w - (R + l * w) * i) / L)] := by
      funext k
      match k with
      | 0 =>
        have : windingRhs torque el [x] (t + h) ![w, i] 0 = 0 := rfl
        simp [this]
      | 1 =>
        have : windingRhs torque el [x] (t + h) ![w, i] 1 = (x - psi * w - (R + l * w) * i) / L := he _ _ _
        simp [this]
    rw [Solver.nstepsLoop, e, ih]
    generalize R + l * w = Z at hZ
    congr 1
    rw [pow_succ]
    congr 1
    field_simp
    ring

theorem winding_euler {p : Parts ℝ (DcY ℝ) (List ℝ) A (Solver.Euler ℝ (Fin 2 → ℝ)) C P} {torque : (Fin 1 → ℝ) → ℝ}
    {el : (Fin 1 → ℝ) → (Fin 1 → ℝ) → ℝ → Fin 1 → ℝ} {R l psi L tau w : ℝ} (he : OneWinding el R l psi L) (hL : L ≠ 0) (hZ : R + l * w ≠ 0)
    (ht : EulerWinding p torque el) {n : ℕ} (hn : n ≠ 0) :
    Winding p (fun s => s.nsteps = n) R l psi tau ((1 - (R + l * w) / L * (tau / n)) ^ n) w := by
  obtain ⟨⟨h1, h2⟩, h3, h4⟩ := ht
  refine ⟨fun s i t h => ⟨?_, ?_, ?_⟩, fun s u t h => ⟨?_, ?_⟩, fun s x i h hy => ?_⟩
  · rw [h1]; exact h
  · rw [h1, h3]; rfl
  · rw [h1, h4]; rfl
  · rw [h2]
    simp only [Solver.Euler.integrate]
    split
    · exact h
    · split
      · exact h
      · exact h
  · rw [h2, h4]
    simp only [Solver.Euler.integrate]
    split
    · rfl
    · split
      · rename_i h0
        exact absurd (h.symm.trans h0) hn
      · rfl
  · rw [h3] at hy
    have hy0 : s.y = ![w, i] := by
      simp only [DcY.mk.injEq, List.cons.injEq, and_true] at hy
      funext k
      match k with
      | 0 => exact hy.1
      | 1 => exact hy.2
    rw [h2, h3, h4]
    simp only [Solver.Euler.integrate]
    split
    · rename_i hone
      obtain rfl : n = 1 := h.symm.trans hone
      have := euler_loop (torque := torque) he hL hZ x tau 1 s.t i
      simp only [Solver.nstepsLoop] at this
      have e : windingRhs torque el [x] (s.t + tau) ![w, i] = windingRhs torque el [x] s.t ![w, i] := rfl
      rw [e] at this
      simp only [Solver.Euler.integrateOneStep, add_sub_cancel_left, hy0, this, Nat.cast_one, div_one]
      rfl
    · rw [if_neg (by rw [h]; exact hn)]
      simp only [Solver.Euler.integrateNsteps, add_sub_cancel_left, hy0, h, euler_loop (torque := torque) he hL hZ]
      rfl

/-! ## Damped loops -/

theorem damped {Z L tau a α σ : ℝ} (hZ : 0 < Z) (hL : 0 < L) (hτ : 0 < tau) (ha : 0 < a) (hα' : α < 1) (hα0 : 0 < α)
    (hup : α * (1 + Z * tau / L) ≤ 1) (hlow : 1 - α ≤ a * (Z * tau / L) * α) (hσ : 0 ≤ σ)
    (hd : 4 * (L / (tau * a)) ^ 2 * (1 + Z * tau / L) ≤ a * (L / (tau * a) + (Z - σ)) ^ 2) :
    (1 - α) / Z * (L / (tau * a) - σ) ≤ α ∧
    4 * ((1 - α) / Z * (L / (tau * a) / a ^ 2)) ≤ (1 - α + (1 - α) / Z * (L / (tau * a) - σ)) ^ 2 := by
  set x := Z * tau / L with hx
  set q := L / (tau * a) with hq
  set β := (1 - α) / Z with hβ
  have hx0 : 0 < x := by positivity
  have hq0 : 0 < q := by positivity
  have hβ0 : 0 < β := div_pos (by linarith) hZ
  have hZβ : Z * β = 1 - α := by rw [hβ]; field_simp
  have hZq : Z = q * (a * x) := by rw [hq, hx]; field_simp
  have hβq : β * q ≤ α := by
    have : β * q * (a * x) ≤ α * (a * x) := by
      calc β * q * (a * x) = Z * β := by rw [hZq]; ring
        _ ≤ _ := by rw [hZβ]; linarith
    exact le_of_mul_le_mul_right this (by positivity)
  have hβ1 : 1 ≤ β * (q * a * (1 + x)) := by
    have h1 : x ≤ (1 - α) * (1 + x) := by nlinarith
    have h2 : x ≤ x * (β * (q * a * (1 + x))) := by
      calc x ≤ (1 - α) * (1 + x) := h1
        _ = Z * β * (1 + x) := by rw [hZβ]
        _ = _ := by rw [hZq]; ring
    nlinarith
  constructor
  · nlinarith
  · have e : (1 - α + β * (q - σ)) ^ 2 = β ^ 2 * (q + (Z - σ)) ^ 2 := by rw [← hZβ]; ring
    have hm : 0 ≤ q * (1 + x) := by positivity
    have h1 : 4 * (β * (q / a ^ 2)) * (q * (1 + x) * a) ≤ β ^ 2 * (q + (Z - σ)) ^ 2 * (q * (1 + x) * a) := by
      have h2 : 4 * (β * (q / a ^ 2)) * (q * (1 + x) * a) = β / a * (4 * q ^ 2 * (1 + x)) := by field_simp
      have h3 : β / a * (4 * q ^ 2 * (1 + x)) ≤ β / a * (a * (q + (Z - σ)) ^ 2) := mul_le_mul_of_nonneg_left hd (by positivity)
      have h4 : β / a * (a * (q + (Z - σ)) ^ 2) = β * (q + (Z - σ)) ^ 2 * 1 := by field_simp
      have h5 : β * (q + (Z - σ)) ^ 2 * 1 ≤ β * (q + (Z - σ)) ^ 2 * (β * (q * a * (1 + x))) :=
        mul_le_mul_of_nonneg_left hβ1 (by positivity)
      calc _ ≤ β * (q + (Z - σ)) ^ 2 * (β * (q * a * (1 + x))) := by rw [h2]; exact h3.trans (h4 ▸ h5)
        _ = _ := by ring
    rw [e]
    exact le_of_mul_le_mul_right h1 (by positivity)

/-- without a feedforward of the current, `4 ≤ a` is enough -/
theorem damped_four {Z L tau a : ℝ} (hZ : 0 < Z) (hL : 0 < L) (hτ : 0 < tau) (ha : 4 ≤ a) :
    4 * (L / (tau * a)) ^ 2 * (1 + Z * tau / L) ≤ a * (L / (tau * a) + (Z - 0)) ^ 2 ∧ L / (tau * a) / a ^ 2 ≤ L / (tau * a) - 0 := by
  have ha0 : 0 < a := by linarith
  set x := Z * tau / L with hx
  set q := L / (tau * a) with hq
  have hx0 : 0 < x := by positivity
  have hq0 : 0 < q := by positivity
  have hZq : Z = q * (a * x) := by rw [hq, hx]; field_simp
  constructor
  · have e : a * (q + (Z - 0)) ^ 2 = q ^ 2 * (a * (1 + a * x) ^ 2) := by rw [hZq]; ring
    rw [e]
    have h1 : 4 * (1 + x) ≤ a * (1 + a * x) ^ 2 := by
      have : 1 + x ≤ (1 + a * x) ^ 2 := by nlinarith [mul_pos ha0 hx0, sq_nonneg (a * x)]
      calc 4 * (1 + x) ≤ a * (1 + x) := by nlinarith
        _ ≤ _ := mul_le_mul_of_nonneg_left this ha0.le
    calc 4 * q ^ 2 * (1 + x) = q ^ 2 * (4 * (1 + x)) := by ring
      _ ≤ _ := mul_le_mul_of_nonneg_left h1 (by positivity)
  · rw [sub_zero, div_le_iff₀ (by positivity)]
    nlinarith [sq_nonneg a, mul_pos hq0 ha0]

theorem exact_factor {x a : ℝ} (hx : 0 < x) (he : Real.exp x ≤ 1 + a * x) :
    0 < Real.exp (-x) ∧ Real.exp (-x) < 1 ∧ Real.exp (-x) * (1 + x) ≤ 1 ∧ 1 - Real.exp (-x) ≤ a * x * Real.exp (-x) := by
  have h0 := Real.exp_pos (-x)
  have h1 : Real.exp (-x) * Real.exp x = 1 := by rw [← Real.exp_add]; simp
  refine ⟨h0, (by rw [← Real.exp_zero]; exact Real.exp_lt_exp.2 (by linarith) : Real.exp (-x) < 1), ?_, ?_⟩
  · nlinarith [Real.add_one_le_exp x]
  · nlinarith

theorem euler_factor {x a : ℝ} (hx : 0 < x) (ha : 0 < a) (hxa : x + 1 / a ≤ 1) {n : ℕ} (hn : n ≠ 0) :
    0 < (1 - x / n) ^ n ∧ (1 - x / n) ^ n < 1 ∧ (1 - x / n) ^ n * (1 + x) ≤ 1 ∧ 1 - (1 - x / n) ^ n ≤ a * x * (1 - x / n) ^ n := by
  have ha1 : 0 < 1 / a := by positivity
  have hn0 : (0 : ℝ) < n := by exact_mod_cast Nat.pos_of_ne_zero hn
  have hn1 : (1 : ℝ) ≤ n := by exact_mod_cast Nat.pos_of_ne_zero hn
  have hxn : x / n < 1 := by
    rw [div_lt_one hn0]
    linarith
  have hxn0 : 0 < x / n := by positivity
  have hb : 1 - x ≤ (1 - x / n) ^ n := by
    have := one_add_mul_le_pow (a := -(x / n)) (by linarith) n
    have e : (1 : ℝ) + n * -(x / n) = 1 - x := by field_simp; ring
    rw [e, ← sub_eq_add_neg] at this
    exact this
  have hu : (1 - x / n) ^ n ≤ Real.exp (-x) := by
    have h1 : 1 - x / n ≤ Real.exp (-(x / n)) := by linarith [Real.add_one_le_exp (-(x / n))]
    calc (1 - x / n) ^ n ≤ Real.exp (-(x / n)) ^ n := pow_le_pow_left₀ (by linarith) h1 n
      _ = Real.exp (-x) := by rw [← Real.exp_nat_mul]; congr 1; field_simp
  have h1 : Real.exp (-x) * Real.exp x = 1 := by rw [← Real.exp_add]; simp
  refine ⟨pow_pos (by linarith) n, hu.trans_lt ((by rw [← Real.exp_zero]; exact Real.exp_lt_exp.2 (by linarith) : Real.exp (-x) < 1)), ?_, ?_⟩
  · calc (1 - x / n) ^ n * (1 + x) ≤ Real.exp (-x) * (1 + x) := mul_le_mul_of_nonneg_right hu (by linarith)
      _ ≤ 1 := by nlinarith [Real.add_one_le_exp x, Real.exp_pos (-x)]
  · have h2 : 1 ≤ a * (1 - x) := by
      have : a * (1 / a) ≤ a * (1 - x) := mul_le_mul_of_nonneg_left (by linarith) ha.le
      rwa [mul_one_div_cancel ha.ne'] at this
    have h3 : x * 1 ≤ x * (a * (1 - x / n) ^ n) := mul_le_mul_of_nonneg_left (h2.trans (mul_le_mul_of_nonneg_left hb ha.le)) hx.le
    calc _ ≤ x * 1 := by linarith
      _ ≤ _ := by rw [mul_comm a x, mul_assoc]; exact h3

/-! ## The current controllers of the package -/

/-- Decoupling is off, or it is on for a permanently excited motor, for which the factor of the speed is zero (emf_feedforward.py
102–104, parameter_reader.py 18, 30, 104). -/
def Flat (ff : Option (ℝ × ℝ × ℝ)) : Prop := ff = none ∨ ∃ psi, ff = some (0, 0, psi)

theorem feeds_low {c : CConv ℝ} {lo U : ℝ} (h : Feeds c lo) (hU : 0 < U) : lo * U ≤ 0 := by
  cases h with
  | four => linarith
  | two => linarith

theorem settles_flat {p : Parts ℝ (DcY ℝ) (List ℝ) (List ℝ) S (CConv ℝ) P} {R l psi L tau a α w U lo nW nT nI r : ℝ}
    {ff : Option (ℝ × ℝ × ℝ)} (hu : Uses p contPower) (hi : Ideal p U) {ok : S → Prop} (hp : Winding p ok R l psi tau α w) (tq : List ℝ → ℝ)
    (hU : 0 < U) (hnW : nW ≠ 0) (hnI : nI ≠ 0) (hL : 0 < L) (hτ : 0 < tau) (ha : 4 ≤ a) (hR : 0 < R + l * w)
    (hα : 0 < α ∧ α < 1 ∧ α * (1 + (R + l * w) * tau / L) ≤ 1 ∧ 1 - α ≤ a * ((R + l * w) * tau / L) * α) (hff : Flat ff)
    (hreach : lo * U < (R + l * w) * r + psi * w ∧ (R + l * w) * r + psi * w < U)
    {c : Current 1 5 ℝ} (hc : TunedCurrent c L tau a lo U ff) {st : St ℝ S (CConv ℝ) P} (hst : Feeds st.conv lo) (hok : ok st.solver) (i : ℝ) :
    CurrentSettles p tq tau nW nT nI U w r i c st := by
  have ha0 : 0 < a := by linarith
  have hs : ffSlope ff w = 0 ∧ ffValue ff w r = 0 := by
    rcases hff with rfl | ⟨psi, rfl⟩
    · exact ⟨rfl, rfl⟩
    · simp [ffSlope, ffValue]
  obtain ⟨a1, a2, a3, a4⟩ := hα
  obtain ⟨d1, d2⟩ := damped_four hR hL hτ ha
  obtain ⟨d3, d4⟩ := damped hR hL hτ ha0 a2 a1 a3 a4 le_rfl d1
  refine c129_settles hu hi hp tq hU hnW hnI hL hτ ha0 hR a1 a2 ?_ ?_ ?_ hreach ?_ hc hst hok i
  · rw [hs.1]; exact d2
  · rw [hs.1]; exact d3
  · rw [hs.1]; exact d4
  · rw [hs.2]; exact ⟨feeds_low hst hU, hU.le⟩

theorem settles_decoupled {p : Parts ℝ (DcY ℝ) (List ℝ) (List ℝ) S (CConv ℝ) P} {R l L tau a α w U lo nW nT nI r : ℝ}
    (hu : Uses p contPower) (hi : Ideal p U) {ok : S → Prop} (hp : Winding p ok R l 0 tau α w) (tq : List ℝ → ℝ)
    (hU : 0 < U) (hnW : nW ≠ 0) (hnI : nI ≠ 0) (hL : 0 < L) (hτ : 0 < tau) (ha : 0 < a) (hR : 0 < R) (hlw : 0 ≤ l * w)
    (hα : 0 < α ∧ α < 1 ∧ α * (1 + (R + l * w) * tau / L) ≤ 1 ∧ 1 - α ≤ a * ((R + l * w) * tau / L) * α)
    (hgain : l * w ≤ L / (tau * a) * (1 - 1 / a ^ 2))
    (hdamp : 4 * (L / (tau * a)) ^ 2 * (1 + (R + l * w) * tau / L) ≤ a * (L / (tau * a) + R) ^ 2)
    (hreach : lo * U < (R + l * w) * r ∧ (R + l * w) * r < U)
    {c : Current 1 5 ℝ} (hc : TunedCurrent c L tau a lo U (some (1, l, 0))) {st : St ℝ S (CConv ℝ) P} (hst : Feeds st.conv lo) (hok : ok st.solver)
    (i : ℝ) : CurrentSettles p tq tau nW nT nI U w r i c st := by
  have hs : ffSlope (some (1, l, 0)) w = l * w ∧ ffValue (some (1, l, 0)) w r = l * w * r := by
    constructor
    · simp [ffSlope]
    · simp only [ffValue]; ring
  obtain ⟨a1, a2, a3, a4⟩ := hα
  have hZ : 0 < R + l * w := by linarith
  obtain ⟨d3, d4⟩ := damped (σ := l * w) hZ hL hτ ha a2 a1 a3 a4 hlw (by rw [add_sub_cancel_right]; exact hdamp)
  refine c129_settles hu hi hp tq hU hnW hnI hL hτ ha hZ a1 a2 ?_ ?_ ?_ (by simpa using hreach) ?_ hc hst hok i
  · rw [hs.1]
    have : L / (tau * a) / a ^ 2 = L / (tau * a) * (1 / a ^ 2) := by ring
    rw [this]
    linarith
  · rw [hs.1]; exact d3
  · rw [hs.1]; exact d4
  · rw [hs.2]
    have hlow := feeds_low hst hU
    rcases le_total 0 r with h | h
    · exact ⟨hlow.trans (mul_nonneg hlw h), by nlinarith [hreach.2, mul_nonneg hR.le h]⟩
    · exact ⟨by nlinarith [hreach.1, mul_nonneg hR.le (neg_nonneg.2 h)], by nlinarith [mul_nonneg hlw (neg_nonneg.2 h)]⟩

/-- C129 (permanently excited motors, exact solutions of the equations): in closed loop with its current controller, with or without
decoupling, the current at constant speed settles at every reference that the voltage can hold.  `hstep` is a bound of the step length:
it holds for `tau ≤ 2 * la / ra`. -/
theorem c129_permEx {p : Parts ℝ (DcY ℝ) (List ℝ) (List ℝ) S (CConv ℝ) P} {mp : PermExParams ℝ} {tau a w U lo nW nT nI r : ℝ}
    {ff : Option (ℝ × ℝ × ℝ)} (hu : Uses p contPower) (hi : Ideal p U) (hp : TracksWinding p (permExTorque mp) (permExOde mp)) (tq : List ℝ → ℝ)
    (hU : 0 < U) (hnW : nW ≠ 0) (hnI : nI ≠ 0) (hL : 0 < mp.la) (hR : 0 < mp.ra) (hτ : 0 < tau) (ha : 4 ≤ a)
    (hstep : Real.exp (mp.ra * tau / mp.la) ≤ 1 + a * (mp.ra * tau / mp.la)) (hff : Flat ff)
    (hreach : lo * U < mp.ra * r + mp.psiE * w ∧ mp.ra * r + mp.psiE * w < U)
    {c : Current 1 5 ℝ} (hc : TunedCurrent c mp.la tau a lo U ff) {st : St ℝ S (CConv ℝ) P} (hst : Feeds st.conv lo) (i : ℝ) :
    CurrentSettles p tq tau nW nT nI U w r i c st := by
  have hZ : mp.ra + 0 * w = mp.ra := by ring
  have hx : 0 < mp.ra * tau / mp.la := by positivity
  have hw := winding_exact (w := w) (permEx_winding mp) hL.ne' (by rw [hZ]; exact hR.ne') hτ.le hp
  have e : -((mp.ra + 0 * w) / mp.la) * tau = -(mp.ra * tau / mp.la) := by rw [hZ]; ring
  rw [e] at hw
  exact settles_flat hu hi hw tq hU hnW hnI hL hτ ha (by rw [hZ]; exact hR) (by rw [hZ]; exact exact_factor hx hstep) hff
    (by rw [hZ]; exact hreach) hc hst trivial i

/-- C129 (permanently excited motors, Euler solver with any number of substeps) -/
theorem c129_permEx_euler {p : Parts ℝ (DcY ℝ) (List ℝ) (List ℝ) (Solver.Euler ℝ (Fin 2 → ℝ)) (CConv ℝ) P} {mp : PermExParams ℝ}
    {tau a w U lo nW nT nI r : ℝ} {ff : Option (ℝ × ℝ × ℝ)} (hu : Uses p contPower) (hi : Ideal p U)
    (hp : EulerWinding p (permExTorque mp) (permExOde mp)) (tq : List ℝ → ℝ)
    (hU : 0 < U) (hnW : nW ≠ 0) (hnI : nI ≠ 0) (hL : 0 < mp.la) (hR : 0 < mp.ra) (hτ : 0 < tau) (ha : 4 ≤ a)
    (hstep : mp.ra * tau / mp.la + 1 / a ≤ 1) (hff : Flat ff)
    (hreach : lo * U < mp.ra * r + mp.psiE * w ∧ mp.ra * r + mp.psiE * w < U)
    {c : Current 1 5 ℝ} (hc : TunedCurrent c mp.la tau a lo U ff) {st : St ℝ (Solver.Euler ℝ (Fin 2 → ℝ)) (CConv ℝ) P} (hst : Feeds st.conv lo)
    (hn : st.solver.nsteps ≠ 0) (i : ℝ) :
    CurrentSettles p tq tau nW nT nI U w r i c st := by
  have hZ : mp.ra + 0 * w = mp.ra := by ring
  have hx : 0 < mp.ra * tau / mp.la := by positivity
  have hw := winding_euler (w := w) (tau := tau) (permEx_winding mp) hL.ne' (by rw [hZ]; exact hR.ne') hp hn
  have e : (mp.ra + 0 * w) / mp.la * (tau / st.solver.nsteps) = mp.ra * tau / mp.la / st.solver.nsteps := by rw [hZ]; ring
  rw [e] at hw
  exact settles_flat hu hi hw tq hU hnW hnI hL hτ ha (by rw [hZ]; exact hR) (by rw [hZ]; exact euler_factor hx (by linarith) hstep hn) hff
    (by rw [hZ]; exact hreach) hc hst rfl i

/-- the resistance of a series motor at a speed -/
def seriesR (mp : DcParams ℝ) (w : ℝ) : ℝ := mp.ra + mp.re + mp.lePrime * w

/-- C129 (series motors without decoupling, exact solutions) -/
theorem c129_series {p : Parts ℝ (DcY ℝ) (List ℝ) (List ℝ) S (CConv ℝ) P} {mp : DcParams ℝ} {tau a w U lo nW nT nI r : ℝ}
    (hu : Uses p contPower) (hi : Ideal p U) (hp : TracksWinding p (seriesTorque mp) (seriesOde mp)) (tq : List ℝ → ℝ)
    (hU : 0 < U) (hnW : nW ≠ 0) (hnI : nI ≠ 0) (hL : 0 < mp.la + mp.le) (hR : 0 < seriesR mp w) (hτ : 0 < tau) (ha : 4 ≤ a)
    (hstep : Real.exp (seriesR mp w * tau / (mp.la + mp.le)) ≤ 1 + a * (seriesR mp w * tau / (mp.la + mp.le)))
    (hreach : lo * U < seriesR mp w * r ∧ seriesR mp w * r < U)
    {c : Current 1 5 ℝ} (hc : TunedCurrent c (mp.la + mp.le) tau a lo U none) {st : St ℝ S (CConv ℝ) P} (hst : Feeds st.conv lo) (i : ℝ) :
    CurrentSettles p tq tau nW nT nI U w r i c st := by
  have hx : 0 < seriesR mp w * tau / (mp.la + mp.le) := by positivity
  have hw := winding_exact (w := w) (series_winding mp) hL.ne' hR.ne' hτ.le hp
  have e : -((mp.ra + mp.re + mp.lePrime * w) / (mp.la + mp.le)) * tau = -(seriesR mp w * tau / (mp.la + mp.le)) := by
    unfold seriesR; ring
  rw [e] at hw
  exact settles_flat hu hi hw tq hU hnW hnI hL hτ ha hR (exact_factor hx hstep) (.inl rfl) (by simpa [seriesR] using hreach) hc hst trivial i

/-- C129 (series motors with decoupling, exact solutions): decoupling lessens the effective gain, the damping must be checked. -/
theorem c129_series_decoupled {p : Parts ℝ (DcY ℝ) (List ℝ) (List ℝ) S (CConv ℝ) P} {mp : DcParams ℝ} {tau a w U lo nW nT nI r : ℝ}
    (hu : Uses p contPower) (hi : Ideal p U) (hp : TracksWinding p (seriesTorque mp) (seriesOde mp)) (tq : List ℝ → ℝ)
    (hU : 0 < U) (hnW : nW ≠ 0) (hnI : nI ≠ 0) (hL : 0 < mp.la + mp.le) (hR : 0 < mp.ra + mp.re) (hlw : 0 ≤ mp.lePrime * w) (hτ : 0 < tau)
    (ha : 0 < a) (hstep : Real.exp (seriesR mp w * tau / (mp.la + mp.le)) ≤ 1 + a * (seriesR mp w * tau / (mp.la + mp.le)))
    (hgain : mp.lePrime * w ≤ (mp.la + mp.le) / (tau * a) * (1 - 1 / a ^ 2))
    (hdamp : 4 * ((mp.la + mp.le) / (tau * a)) ^ 2 * (1 + seriesR mp w * tau / (mp.la + mp.le))
      ≤ a * ((mp.la + mp.le) / (tau * a) + (mp.ra + mp.re)) ^ 2)
    (hreach : lo * U < seriesR mp w * r ∧ seriesR mp w * r < U)
    {c : Current 1 5 ℝ} (hc : TunedCurrent c (mp.la + mp.le) tau a lo U (some (1, mp.lePrime, 0))) {st : St ℝ S (CConv ℝ) P}
    (hst : Feeds st.conv lo) (i : ℝ) :
    CurrentSettles p tq tau nW nT nI U w r i c st := by
  have hZ : 0 < seriesR mp w := by unfold seriesR; linarith
  have hx : 0 < seriesR mp w * tau / (mp.la + mp.le) := by positivity
  have hw := winding_exact (w := w) (series_winding mp) hL.ne' hZ.ne' hτ.le hp
  have e : -((mp.ra + mp.re + mp.lePrime * w) / (mp.la + mp.le)) * tau = -(seriesR mp w * tau / (mp.la + mp.le)) := by
    unfold seriesR; ring
  rw [e] at hw
  exact settles_decoupled hu hi hw tq hU hnW hnI hL hτ ha hR hlw (exact_factor hx hstep) hgain hdamp hreach hc hst trivial i

/-! ## Cases -/

/-- The bound of the step length holds up to twice the time constant of the winding. -/
theorem step_bound {x a : ℝ} (ha : 4 ≤ a) (hx : 0 ≤ x) (hx2 : x ≤ 2) : Real.exp x ≤ 1 + a * x := by
  have h1 : Real.exp x ≤ (1 - x / 2) * Real.exp 0 + x / 2 * Real.exp 2 := by
    have := convexOn_exp.2 (Set.mem_univ 0) (Set.mem_univ 2) (by linarith : (0 : ℝ) ≤ 1 - x / 2) (by linarith : (0 : ℝ) ≤ x / 2) (by ring)
    simpa using this
  have h2 : Real.exp 2 ≤ 9 := by
    have : Real.exp 2 = Real.exp 1 * Real.exp 1 := by rw [← Real.exp_add]; norm_num
    have h3 := Real.exp_one_lt_d9
    have h4 := Real.exp_pos 1
    nlinarith
  rw [Real.exp_zero] at h1
  nlinarith

/-- the controller that `tune` makes, with no decoupling or with the feedforward `ff` -/
def newCurrent (L tau a lo U : ℝ) (ff : Option (ℝ × ℝ × ℝ)) : Current 1 5 ℝ :=
  ⟨Base.tuneCurrent .PI (fun _ => L) tau a (fun _ => 2), ff.map fun f => emf f.1 (fun _ => f.2.1) (fun _ => f.2.2) (fun _ => 2) 0,
    .tuneAbsolute (fun _ => U) (fun _ => lo) (fun _ => 1) 0, tau, fun _ => 2, []⟩

theorem newCurrent_tuned (L tau a lo U : ℝ) (ff : Option (ℝ × ℝ × ℝ)) : TunedCurrent (newCurrent L tau a lo U ff) L tau a lo U ff :=
  ⟨⟨none, rfl⟩, rfl, rfl, rfl, rfl⟩

theorem moving_tracks {C : Type} {pw : Power (List ℝ) C} {U₀ : ℝ} {torque : (Fin 1 → ℝ) → ℝ} {el : (Fin 1 → ℝ) → (Fin 1 → ℝ) → ℝ → Fin 1 → ℝ}
    {motion : ℝ → ℝ → ℝ → ℝ → Fin 2 → ℝ} (hm : ∀ x w i, motion x w i 0 = ![w, i] ∧
      Runs (systemEquation constMech torque el 0 none) (fun _ => ![x]) (motion x w i)) : TracksWinding (movingParts pw U₀ motion) torque el := by
  refine ⟨fun s y t => ⟨rfl, rfl⟩, fun s u t => ?_, fun s x t w i hy ht => ⟨motion x w i, (hm x w i).2, (hm x w i).1, ?_⟩⟩
  · simp only [movingParts]
    split <;> rfl
  · obtain ⟨y, t0⟩ := s
    obtain rfl : y = ⟨[w], [i]⟩ := hy
    have h0 : t0 ≤ t := ht
    show ((movingParts pw U₀ motion).integrate (⟨[w], [i]⟩, t0) [x] t).1 = _
    simp only [movingParts]
    rw [max_eq_right (by linarith)]
    rfl

/-- The default drive of `Cont-CC-PermExDc-v0` with its default controller: the current settles at every reference of the state space,
from every current. -/
example : ∃ p : Parts ℝ (DcY ℝ) (List ℝ) (List ℝ) (DcY ℝ × ℝ) (CConv ℝ) Unit, ∀ (r i : ℝ), |r| ≤ 210 → ∀ ff, Flat ff →
    ∀ st : St ℝ (DcY ℝ × ℝ) (CConv ℝ) Unit, st.conv = newC .four →
      CurrentSettles p (fun l => 165 / 1000 * Reward.entry l 0) (1 / 10000) 400 38 210 60 100 r i
        (newCurrent (19 / 1000000) (1 / 10000) 4 (-1) 60 ff) st := by
  obtain ⟨motion, hm⟩ := motions_exist default_motions.2 .const trivial
  obtain ⟨-, h2, h3⟩ := moving_shaped contPower 60 motion
  refine ⟨_, fun r i hr ff hff st hst => c129_permEx (mp := permExDefault) (tau := 1 / 10000) (w := 100) (nW := 400) (nT := 38) (nI := 210) h2 h3 (moving_tracks hm) _ (by norm_num) (by norm_num) (by norm_num)
    (by norm_num [permExDefault]) (by norm_num [permExDefault]) (by norm_num) le_rfl ?_ hff ?_ (newCurrent_tuned _ _ _ _ _ _) ?_ i⟩
  · exact step_bound le_rfl (by norm_num [permExDefault]) (by norm_num [permExDefault])
  · have := abs_le.1 hr
    simp only [permExDefault]
    constructor <;> linarith
  · rw [hst]
    exact .four _ rfl rfl rfl

/-- The default drive of `Cont-CC-SeriesDc-v0`, with and without decoupling. -/
example : ∃ p : Parts ℝ (DcY ℝ) (List ℝ) (List ℝ) (DcY ℝ × ℝ) (CConv ℝ) Unit, ∀ (r i : ℝ), |r| ≤ 210 → ∀ ff,
    (ff = none ∨ ff = some (1, 17 / 10000, 0)) → ∀ st : St ℝ (DcY ℝ × ℝ) (CConv ℝ) Unit, st.conv = newC .four →
      CurrentSettles p (fun l => seriesTorque seriesDefault ![Reward.entry l 0]) (1 / 10000) 400 38 210 60 100 r i
        (newCurrent (19 / 1000000 + 54 / 10000) (1 / 10000) 4 (-1) 60 ff) st := by
  obtain ⟨motion, hm⟩ := motions_exist default_motions.1 .const trivial
  obtain ⟨-, h2, h3⟩ := moving_shaped contPower 60 motion
  refine ⟨movingParts contPower 60 motion, ?_⟩
  rintro r i hr ff (rfl | rfl) st hst
  · refine c129_series (mp := seriesDefault) (tau := 1 / 10000) (w := 100) (nW := 400) (nT := 38) (nI := 210) h2 h3 (moving_tracks hm) _ (by norm_num) (by norm_num) (by norm_num)
      (by norm_num [seriesDefault]) (by norm_num [seriesDefault, seriesR]) (by norm_num) le_rfl ?_ ?_ (newCurrent_tuned _ _ _ _ _ _) ?_ i
    · exact step_bound le_rfl (by norm_num [seriesDefault, seriesR]) (by norm_num [seriesDefault, seriesR])
    · have := abs_le.1 hr
      simp only [seriesDefault, seriesR]
      constructor <;> linarith
    · rw [hst]
      exact .four _ rfl rfl rfl
  · refine c129_series_decoupled (mp := seriesDefault) (tau := 1 / 10000) (w := 100) (nW := 400) (nT := 38) (nI := 210) h2 h3 (moving_tracks hm) _ (by norm_num) (by norm_num) (by norm_num)
      (by norm_num [seriesDefault]) (by norm_num [seriesDefault]) (by norm_num [seriesDefault]) (by norm_num) (by norm_num) ?_
      (by norm_num [seriesDefault]) (by norm_num [seriesDefault, seriesR]) ?_ (newCurrent_tuned _ _ _ _ _ _) ?_ i
    · exact step_bound le_rfl (by norm_num [seriesDefault, seriesR]) (by norm_num [seriesDefault, seriesR])
    · have := abs_le.1 hr
      simp only [seriesDefault, seriesR]
      constructor <;> linarith
    · rw [hst]
      exact .four _ rfl rfl rfl

/-- an Euler solver with an ideal supply -/
def eulerWindingParts (U₀ : ℝ) (torque : (Fin 1 → ℝ) → ℝ) (el : (Fin 1 → ℝ) → (Fin 1 → ℝ) → ℝ → Fin 1 → ℝ) :
    Parts ℝ (DcY ℝ) (List ℝ) (List ℝ) (Solver.Euler ℝ (Fin 2 → ℝ)) (CConv ℝ) Unit where
  solverT s := s.t
  solverY s := ⟨[s.y 0], [s.y 1]⟩
  integrate s u t := (s.integrate (windingRhs torque el u) t).1
  setInitial s y t := s.setInitialValue ![Reward.entry y.mech 0, Reward.entry y.motor 0] t
  setAction := contPower.setAction
  convert := contPower.convert
  iSup := contPower.iSup
  convReset := contPower.reset
  getVoltage p _ _ := (p, [U₀])
  supplyReset p := (p, [U₀])

/-- the default drive with an Euler solver, whatever the number of substeps; a two-quadrant converter that cannot invert the voltage -/
example (r i : ℝ) (hr : 0 ≤ r) (hr' : r ≤ 210) (n : ℕ) (hn : n ≠ 0) (st : St ℝ (Solver.Euler ℝ (Fin 2 → ℝ)) (CConv ℝ) Unit)
    (hst : st.conv = .two ⟨1 / 10000, 0, 0⟩) (hs : st.solver.nsteps = n) :
    CurrentSettles (eulerWindingParts 60 (permExTorque permExDefault) (permExOde permExDefault)) (fun l => 165 / 1000 * Reward.entry l 0) (1 / 10000)
      400 38 210 60 100 r i (newCurrent (19 / 1000000) (1 / 10000) 4 0 60 none) st := by
  refine c129_permEx_euler (mp := permExDefault) (tau := 1 / 10000) (w := 100) (nW := 400) (nT := 38) (nI := 210) ⟨rfl, rfl, rfl, rfl⟩
    ⟨fun _ _ _ => rfl, fun _ => rfl⟩ ⟨⟨rfl, rfl⟩, fun _ => rfl, fun _ => rfl⟩ _ (by norm_num) (by norm_num) (by norm_num)
    (by norm_num [permExDefault]) (by norm_num [permExDefault]) (by norm_num) le_rfl (by norm_num [permExDefault]) (.inl rfl) ?_
    (newCurrent_tuned _ _ _ _ _ _) ?_ (by rw [hs]; exact hn) i
  · simp only [permExDefault]
    constructor <;> linarith
  · rw [hst]
    exact .two _ rfl

end

end GEM.Props
