import Verif.Props.Mirror

/-!
# C138: holding an action

A long step is worth as much as several short ones with the same action, if the solver divides both into intervals of the same length.
-/

set_option linter.unusedSectionVars false

namespace GEM.Props

noncomputable section

open GEM GEM.Sys GEM.Conv GEM.Motor GEM.Solver GEM.Load

/-! ## Statement -/

/-- Every action is given `k` times. -/
def heldOps {Y A : Type} (k : ℕ) : List (Y ⊕ A) → List (Y ⊕ A)
  | [] => []
  | .inl y :: ops => .inl y :: heldOps k ops
  | .inr a :: ops => List.replicate k (.inr a) ++ heldOps k ops

/-- Of the answers to these calls: those to the resets and, for every action, the answer to its last repetition. -/
def everyKth {Y A α : Type} (k : ℕ) : List (Y ⊕ A) → List α → List α
  | .inl _ :: ops, o :: l => o :: everyKth k ops l
  | .inr _ :: ops, l => (l.take k).getLast?.toList ++ everyKth k ops (l.drop k)
  | _, _ => []

/-- Converters that set their switches once in a step (of length `d`): with the legal actions the only switching time is the end of the step, and
the output during the step follows from the action alone, whatever happened before and whatever currents flow.  `w0` is the output reported by
`reset`. -/
def SetOnce {A C : Type} {n : ℕ} (pw : Power A C) (c : C) (d : ℝ) (legal : A → Prop) (out : A → Fin n → ℝ) (w0 : Fin n → ℝ) : Prop :=
  ∃ (D : Type) (M : Machine D A n) (all : A → Prop) (holds : C → D → Prop), Realises pw M all holds ∧ (∃ δ, holds c δ) ∧
    (∀ a, legal a → all a ∧ ∀ δ, M.times δ a = [d] ∧ ∀ o i, M.out δ a o i = out a) ∧ ∀ c δ, holds c δ → (pw.reset c).2 = List.ofFn w0

/-- a supply with this voltage -/
def FixedVoltage {P : Type} (src : Source P) (v : ℝ) : Prop := (∀ p t i, (src.getVoltage p t i).2 = [v]) ∧ ∀ p, (src.reset p).2 = [v]

/-- The same values of these states. -/
def SameIn (names told : List String) (o o' : List ℝ) : Prop :=
  o.length = o'.length ∧ ∀ n ∈ told, readState names o' n = readState names o n

/-- The system with sampling time `k * d` and `k * n` intervals of the Euler solver per step answers, to every sequence of resets and legal
actions that begins with a reset, as the system with sampling time `d` and `n` intervals answers to the sequence with every action given `k`
times: the answers to the resets and to the last repetitions are related by `obs`. -/
def HeldAlike {m n : ℕ} {Y U A C P : Type} (pw : Power A C) (out : A → Fin n → ℝ) (legal : A → Prop) (src : Source P) (load : AnyLoad)
    (torque : (Fin m → ℝ) → ℝ) (ode : (Fin m → ℝ) → U → ℝ → Fin m → ℝ) (toY : (Fin (1 + m) → ℝ) → Y) (ofY : Y → Fin (1 + m) → ℝ)
    (f : Frame ℝ Y U A) (rep : Y → List ℝ → List ℝ → Except Err (List ℝ)) (limits : List ℝ) (obs : List ℝ → List ℝ → Prop) : Prop :=
  ∀ (k l : ℕ) (d : ℝ) (w0 : Fin n → ℝ) (scratch scratch' : Option (Fin (1 + m) → ℝ)) (st st' : St ℝ (Euler ℝ (Fin (1 + m) → ℝ)) C P) (y : Y)
    (ops : List (Y ⊕ A)), 0 < k → 0 < l → SetOnce pw st.conv (k * d) legal out w0 → SetOnce pw st'.conv d legal out w0 →
    st.solver.nsteps = k * l → st'.solver.nsteps = l → (∀ a, .inr a ∈ ops → legal a) →
    List.Forall₂ (Echo obs) (answers (eulerParts pw src load torque ode scratch toY ofY) f rep (k * d) limits st (.inl y :: ops))
      (everyKth k (.inl y :: ops)
        (answers (eulerParts pw src load torque ode scratch' toY ofY) f rep d limits st' (heldOps k (.inl y :: ops))))

/-! ## The solver -/

section solver

variable {Y : Type*} [AddCommGroup Y] [Module ℝ Y]

/-- one interval of the Euler solver -/
def euStep (g : Y → Y) (h : ℝ) (x : Y) : Y := x + h • g x

theorem nstepsLoop_iterate (g : Y → Y) (tau : ℝ) (n : ℕ) (t : ℝ) (x : Y) : nstepsLoop (fun _ => g) tau n t x = (euStep g tau)^[n] x := by
  induction n generalizing t x with
  | zero => rfl
  | succ n ih =>
    simp only [nstepsLoop, Function.iterate_succ, Function.comp]
    rw [ih]
    rfl

theorem integrate_iterate (g : Y → Y) (s : Euler ℝ Y) (t : ℝ) (h : s.nsteps ≠ 0) :
    (s.integrate (fun _ => g) t).1 = ⟨t, (euStep g ((t - s.t) / s.nsteps))^[s.nsteps] s.y, s.nsteps⟩ := by
  unfold Euler.integrate
  by_cases e : s.nsteps = 1
  · simp only [e, if_true, Euler.integrateOneStep, Nat.cast_one, div_one, Function.iterate_one]
    rfl
  · simp only [e, h, if_false, Euler.integrateNsteps, nstepsLoop_iterate]

end solver

/-! ## Steps -/

section systems

variable {m n : ℕ} {Y U A C P D : Type} {pw : Power A C} {src : Source P} {torque : (Fin m → ℝ) → ℝ}
  {ode : (Fin m → ℝ) → U → ℝ → Fin m → ℝ} {load : AnyLoad} {scratch scratch' : Option (Fin (1 + m) → ℝ)} {toY : (Fin (1 + m) → ℝ) → Y}
  {ofY : Y → Fin (1 + m) → ℝ} {f : Frame ℝ Y U A} {rep : Y → List ℝ → List ℝ → Except Err (List ℝ)} {limits : List ℝ} {v : ℝ}
  {M : Machine D A n} {all legal : A → Prop} {holds : C → D → Prop} {obs : List ℝ → List ℝ → Prop}

/-- A step without inner switching times. -/
theorem simulate_once (hR : Realises pw M all holds) (hs : load.Static) (hv : FixedVoltage src v)
    {st : St ℝ (Euler ℝ (Fin (1 + m) → ℝ)) C P} {a b : A} {δ : D} {d : ℝ} {w i : Fin n → ℝ} {u : U} (hc : holds st.conv δ)
    (hb : f.action (toY st.solver.y) b = a) (ha : all a) (ht : ∃ s, M.times δ a = [s]) (ho : M.out δ a 0 i = w)
    (hi : f.iIn (toY st.solver.y) = List.ofFn i) (hu : f.lastU (toY st.solver.y) (List.ofFn fun k => w k * v) = .ok u)
    (hn : st.solver.nsteps ≠ 0) (hsync : st.solver.t = st.t) :
    ∃ c' p', holds c' (M.next δ a 0) ∧ simulate (eulerParts pw src load torque ode scratch toY ofY) f d limits st b =
      (⟨st.t + d, st.k + 1, ⟨st.t + d, (euStep (core torque ode load u) (d / st.solver.nsteps))^[st.solver.nsteps] st.solver.y,
        st.solver.nsteps⟩, c', p'⟩,
        (f.report (toY st.solver.y) (toY ((euStep (core torque ode load u) (d / st.solver.nsteps))^[st.solver.nsteps] st.solver.y))
          (List.ofFn fun k => w k * v) [v]).bind fun s => divLimits s limits) := by
  obtain ⟨t, k, s, c, p⟩ := st
  simp only at hc hb hi hu hn hsync ⊢
  obtain ⟨⟨during, h1, h2⟩, -⟩ := hR
  obtain ⟨c1, e1, e2, e3⟩ := h1 c δ a t hc ha
  obtain ⟨τ, ht⟩ := ht
  obtain ⟨-, h3⟩ := h2 c1 δ a t ha e3 i
  obtain ⟨c2, e4, -, e6⟩ := h3 0
  have e5 := e2 i
  rw [add_zero, ho] at e4
  refine ⟨c2, (src.getVoltage p t (M.sup δ a i)).1, e6, ?_⟩
  have key := integrate_iterate (core torque ode load u) s (t + d) hn
  rw [hsync, add_sub_cancel_left] at key
  unfold simulate
  simp only [eulerParts, hb, e1, ht, List.map_cons, List.map_nil, List.dropLast_singleton, pieces, Call.bind, piece, hi, e5, hsync, e4, hv.1,
    products_ofFn, hu, drive_static torque ode hs, key]

/-- What a system does with the voltages and currents. -/
structure HoldFrame (f : Frame ℝ Y U A) (rep : Y → List ℝ → List ℝ → Except Err (List ℝ)) (limits : List ℝ)
    (toY : (Fin (1 + m) → ℝ) → Y) (g : (Fin n → ℝ) → U) (obs : List ℝ → List ℝ → Prop) : Prop where
  act : ∀ y a, f.action y a = a
  cur : ∀ x, ∃ i : Fin n → ℝ, f.iIn (toY x) = List.ofFn i
  last : ∀ x w, f.lastU (toY x) (List.ofFn w) = .ok (g w)
  report : ∀ x x' z (w : Fin n → ℝ) v, Echo obs ((f.report (toY x) (toY z) (List.ofFn w) [v]).bind fun s => divLimits s limits)
    ((f.report (toY x') (toY z) (List.ofFn w) [v]).bind fun s => divLimits s limits)
  start : ∀ y (w : Fin n → ℝ) v, Echo obs ((rep y (List.ofFn w) [v]).bind fun s => divLimits s limits)
    ((rep y (List.ofFn w) [v]).bind fun s => divLimits s limits)

/-- Several steps with the same action. -/
theorem simulate_held {g : (Fin n → ℝ) → U} (hf : HoldFrame f rep limits toY g obs) (hR : Realises pw M all holds) (hs : load.Static)
    (hv : FixedVoltage src v) {a : A} (ha : all a) {d : ℝ} (hM : ∀ δ, M.times δ a = [d]) {w : Fin n → ℝ} (ho : ∀ δ o i, M.out δ a o i = w)
    (k : ℕ) {st : St ℝ (Euler ℝ (Fin (1 + m) → ℝ)) C P} (hc : ∃ δ, holds st.conv δ) (hn : st.solver.nsteps ≠ 0) (hsync : st.solver.t = st.t) :
    let p := eulerParts pw src load torque ode scratch toY ofY
    let e := euStep (core torque ode load (g fun k => w k * v)) (d / st.solver.nsteps)
    let z := stateAfter p f rep d limits st (List.replicate k (.inr a))
    (∃ δ, holds z.conv δ) ∧ z.solver = ⟨z.t, e^[st.solver.nsteps * k] st.solver.y, st.solver.nsteps⟩ ∧
      (0 < k → ∃ x, (answers p f rep d limits st (List.replicate k (.inr a))).getLast? = some
        ((f.report (toY x) (toY z.solver.y) (List.ofFn fun k => w k * v) [v]).bind fun s => divLimits s limits)) := by
  intro p e z
  induction k generalizing st with
  | zero =>
    refine ⟨hc, ?_, fun h => absurd h (lt_irrefl 0)⟩
    show st.solver = _
    rw [Nat.mul_zero, Function.iterate_zero, id]
    show st.solver = ⟨st.t, _, _⟩
    rw [← hsync]
  | succ k ih =>
    obtain ⟨δ, hδ⟩ := hc
    obtain ⟨i, hi⟩ := hf.cur st.solver.y
    obtain ⟨c', p', h1, h2⟩ := simulate_once (ode := ode) (torque := torque) (ofY := ofY) (scratch := scratch) (limits := limits) (d := d) hR hs hv hδ (hf.act _ a) ha ⟨_, hM δ⟩
      (ho δ 0 i) hi (hf.last _ _) hn hsync
    have ez : z = stateAfter p f rep d limits (simulate p f d limits st a).1 (List.replicate k (.inr a)) := rfl
    obtain ⟨g1, g2, g3⟩ := ih (st := (simulate p f d limits st a).1) (by rw [h2]; exact ⟨_, h1⟩) (by rw [h2]; exact hn) (by rw [h2])
    rw [← ez] at g1 g2 g3
    refine ⟨g1, ?_, fun _ => ?_⟩
    · rw [g2, h2]
      simp only
      rw [← Function.iterate_add_apply, Nat.mul_succ]
    · rw [List.replicate_succ, answers]
      rcases Nat.eq_zero_or_pos k with rfl | hk
      · refine ⟨st.solver.y, ?_⟩
        rw [List.replicate_zero, answers, List.getLast?_singleton, g2, h2]
        simp only [Nat.mul_zero, Function.iterate_zero, id]
      · obtain ⟨x, hx⟩ := g3 hk
        refine ⟨x, ?_⟩
        rw [List.getLast?_cons, hx]
        rfl

/-- Histories. -/
theorem held_of {out : A → Fin n → ℝ} {g : (Fin n → ℝ) → U} (hf : HoldFrame f rep limits toY g obs) (hs : load.Static) (hv : FixedVoltage src v) :
    HeldAlike pw out legal src load torque ode toY ofY f rep limits obs := by
  intro k l d w0 scratch scratch' st st' y ops hk hl hc hc' hn hn' hops
  obtain ⟨D, M, all, holds, hR, hst, hM, h0⟩ := hc
  obtain ⟨D', M', all', holds', hR', hst', hM', h0'⟩ := hc'
  obtain ⟨p, hp⟩ : ∃ p, p = eulerParts pw src load torque ode scratch toY ofY := ⟨_, rfl⟩
  obtain ⟨p', hp'⟩ : ∃ p, p = eulerParts pw src load torque ode scratch' toY ofY := ⟨_, rfl⟩
  rw [← hp, ← hp']
  have hkl : k * l ≠ 0 := Nat.mul_ne_zero hk.ne' hl.ne'
  -- resets
  have hr : ∀ (st st' : St ℝ (Euler ℝ (Fin (1 + m) → ℝ)) C P) y, (∃ δ, holds st.conv δ) → (∃ δ, holds' st'.conv δ) →
      st.solver.nsteps = k * l → st'.solver.nsteps = l →
      Echo obs (reset p rep limits st y).2 (reset p' rep limits st' y).2 ∧ (∃ δ, holds (reset p rep limits st y).1.conv δ) ∧
      (∃ δ, holds' (reset p' rep limits st' y).1.conv δ) ∧ (reset p rep limits st y).1.solver = ⟨(reset p rep limits st y).1.t, ofY y, k * l⟩ ∧
      (reset p' rep limits st' y).1.solver = ⟨(reset p' rep limits st' y).1.t, ofY y, l⟩ := by
    rintro st st' y ⟨δ, hδ⟩ ⟨δ', hδ'⟩ e e'
    subst hp hp'
    refine ⟨?_, ⟨δ, hR.2 _ _ hδ⟩, ⟨δ', hR'.2 _ _ hδ'⟩, ?_, ?_⟩
    · simp only [reset, eulerParts, hv.2, h0 _ _ hδ, h0' _ _ hδ', products_ofFn]
      exact hf.start _ _ _
    · simp only [reset, eulerParts, Euler.setInitialValue, e]
    · simp only [reset, eulerParts, Euler.setInitialValue, e']
  -- the rest
  have main : ∀ (ops : List (Y ⊕ A)), (∀ a, .inr a ∈ ops → legal a) → ∀ (st st' : St ℝ (Euler ℝ (Fin (1 + m) → ℝ)) C P) (x : Fin (1 + m) → ℝ),
      (∃ δ, holds st.conv δ) → (∃ δ, holds' st'.conv δ) → st.solver = ⟨st.t, x, k * l⟩ → st'.solver = ⟨st'.t, x, l⟩ →
      List.Forall₂ (Echo obs) (answers p f rep (k * d) limits st ops) (everyKth k ops (answers p' f rep d limits st' (heldOps k ops))) := by
    intro ops
    induction ops with
    | nil => intro _ _ _ _ _ _ _ _; exact .nil
    | cons o ops ih =>
      intro hops st st' x hst hst' e e'
      specialize ih fun a h => hops a (List.mem_cons_of_mem _ h)
      cases o with
      | inl y =>
        obtain ⟨r1, r2, r3, r4, r5⟩ := hr st st' y hst hst' (by rw [e]) (by rw [e'])
        exact .cons r1 (ih _ _ _ r2 r3 r4 r5)
      | inr a =>
        have ha := hops a (by simp)
        obtain ⟨a1, a2⟩ := hM a ha
        obtain ⟨a1', a2'⟩ := hM' a ha
        have one := simulate_held (ode := ode) (torque := torque) (ofY := ofY) (scratch := scratch) (w := out a) hf hR hs hv a1
          (fun δ => (a2 δ).1) (fun δ => (a2 δ).2) 1 hst (by rw [e]; exact hkl) (by rw [e])
        have many := simulate_held (ode := ode) (torque := torque) (ofY := ofY) (scratch := scratch') (w := out a) hf hR' hs hv a1'
          (fun δ => (a2' δ).1) (fun δ => (a2' δ).2) k hst' (by rw [e']; exact hl.ne') (by rw [e'])
        simp only [← hp, ← hp'] at one many
        obtain ⟨o1, o2, o3⟩ := one
        obtain ⟨m1, m2, m3⟩ := many
        obtain ⟨x1, o3⟩ := o3 one_pos
        obtain ⟨x2, m3⟩ := m3 hk
        have eh : (k : ℝ) * d / ((l * k : ℕ) : ℝ) = d / (l : ℝ) := by
          rw [mul_comm l k, Nat.cast_mul]
          exact mul_div_mul_left _ _ (Nat.cast_ne_zero.2 hk.ne')
        rw [e] at o2
        rw [e'] at m2
        simp only [mul_one, mul_comm k l, eh] at o2
        simp only at m2
        have len : (answers p' f rep d limits st' (List.replicate k (.inr a))).length = k := by rw [answers_length, List.length_replicate]
        rw [heldOps, answers_append, everyKth, List.take_left' len, List.drop_left' len, m3]
        simp only [answers, List.replicate_one, List.getLast?_singleton, Option.some.injEq] at o3 o1 o2 ⊢
        simp only [stateAfter] at o1 o2 o3
        refine .cons ?_ (ih _ _ _ o1 m1 (by rw [o2, mul_comm k l]) m2)
        rw [o3, o2, m2]
        exact hf.report _ _ _ _ _
  obtain ⟨r1, r2, r3, r4, r5⟩ := hr st st' y hst hst' hn hn'
  exact .cons r1 (main ops hops _ _ _ r2 r3 r4 r5)

end systems

/-! ## Converters -/

/-- relative voltages of the four quadrant converter -/
def fourVolt (a : ℕ) (_ : Fin 1) : ℝ := if a = 1 then 1 else if a = 2 then -1 else 0
/-- relative voltage of the half bridge with one closed switch -/
def twoVolt (a : ℕ) (_ : Fin 1) : ℝ := if a = 1 then 1 else 0
/-- relative voltages of the three-phase bridge: one bit for each -/
def b6Volt (a : ℕ) (k : Fin 3) : ℝ := if a.testBit (2 - k) then 1 / 2 else -1 / 2
/-- duty cycles of the continuous converters -/
def twoDuty (a : List ℝ) (_ : Fin 1) : ℝ := clip (a.headD 0) 0 1
/-- four quadrants -/
def fourDuty (a : List ℝ) (_ : Fin 1) : ℝ := clip (a.headD 0) (-1) 1
/-- three phases -/
def b6Duty (a : List ℝ) (k : Fin 3) : ℝ := clip (a.getD k 0) (-1) 1 / 2

theorem no_waits (s a : ℕ) : ¬ Waits 0 s a := fun h => h.2.2.2 rfl

theorem legTimes_zero (tau : ℝ) (s a : ℕ) : legTimes tau 0 s a = [tau] := by
  unfold legTimes
  simp only [no_waits, if_false]

theorem legNext_zero (tau : ℝ) (s a : ℕ) (o : ℝ) : legNext tau 0 s a o = a := by
  unfold legNext
  simp only [no_waits, false_and, if_false]

theorem sortedSet_twice (x : ℝ) : sortedSet [x, x] = [x] := by simp [sortedSet]
theorem sortedSet_thrice (x : ℝ) : sortedSet [x, x, x] = [x] := by simp [sortedSet]

theorem clip_unit (x : ℝ) : clip (clip x 0 1) 0 1 = clip x 0 1 := by
  have := clip_mem (x := x) (zero_le_one (α := ℝ))
  exact clip_of_mem this.1 this.2

theorem clip_halves (x : ℝ) : clip (1 / 2 * (x + 1)) 0 1 - clip (-(1 / 2) * (x - 1)) 0 1 = clip x (-1) 1 := by
  unfold clip
  rcases le_total x (-1) with h | h
  · rw [max_eq_right (by linarith), max_eq_left (by linarith), min_eq_left (by norm_num), min_eq_right (by linarith), max_eq_right h,
      min_eq_left (by norm_num)]
    norm_num
  · rcases le_total x 1 with h' | h'
    · rw [max_eq_left (by linarith), max_eq_left (by linarith), min_eq_left (by linarith), min_eq_left (by linarith), max_eq_left h,
        min_eq_left h']
      ring
    · rw [max_eq_left (by linarith), max_eq_right (by linarith), min_eq_right (by linarith), min_eq_left (by norm_num), max_eq_left h,
        min_eq_right h']
      norm_num

theorem clip_halfway (x : ℝ) : clip (1 / 2 * (x + 1)) 0 1 - 1 / 2 = clip x (-1) 1 / 2 := by
  unfold clip
  rcases le_total x (-1) with h | h
  · rw [max_eq_right (by linarith), min_eq_left (by norm_num), max_eq_right h, min_eq_left (by norm_num)]
    norm_num
  · rcases le_total x 1 with h' | h'
    · rw [max_eq_left (by linarith), min_eq_left (by linarith), max_eq_left h, min_eq_left h']
      ring
    · rw [max_eq_left (by linarith), min_eq_right (by linarith), max_eq_left h, min_eq_right h']
      norm_num

theorem four_out (tau : ℝ) {a : ℕ} (ha : a < 4) (δ : ℕ × ℕ) : (fFour tau 0).times δ a = [tau] ∧ ∀ o i, (fFour tau 0).out δ a o i = fourVolt a := by
  refine ⟨?_, fun o i => ?_⟩
  · simp only [fFour, legTimes_zero, List.cons_append, List.nil_append, sortedSet_twice]
  · funext k
    simp only [fFour, legNext_zero]
    obtain rfl | rfl | rfl | rfl : a = 0 ∨ a = 1 ∨ a = 2 ∨ a = 3 := by omega
    all_goals simp [fourLegs, legOut, fourVolt]

theorem fFour_reset {tau : ℝ} (c : FConv ℝ) (δ : ℕ × ℕ) (h : IsFFour tau 0 c δ) : (finitePower.reset c).2 = List.ofFn (fun _ : Fin 1 => (0 : ℝ)) := by
  obtain ⟨c', rfl, -⟩ := h
  simp [finitePower, FConv.reset, FourQC.reset]

theorem cFour_reset {tau : ℝ} (c : CConv ℝ) (h : IsCFour tau 0 c) : (contPower.reset c).2 = List.ofFn (fun _ : Fin 1 => (0 : ℝ)) := by
  obtain ⟨c', rfl, -⟩ := h
  simp [contPower, CConv.reset]

theorem cfour_out (tau : ℝ) (a : List ℝ) (i : Fin 1 → ℝ) : cFourOut tau 0 a i = fourDuty a := by
  funext k
  simp only [cFourOut, dead_zero, sub_zero, clip_unit, clip_halves, fourDuty]

theorem fresh_ffour (tau : ℝ) : IsFFour tau 0 (.four (FourQC.new tau 0)) (0, 0) := ⟨_, rfl, ⟨rfl, rfl, rfl, by norm_num⟩, rfl, rfl, rfl, by norm_num⟩

/-- The converters without interlocking time set their switches once in a step: finite and continuous converters with two (one switch closed) and four
quadrants and three phases, and two converters with four quadrants for the externally excited motor. -/
theorem c138_converters (tau : ℝ) :
    SetOnce finitePower (.two (TwoQC.new tau 0)) tau (fun a => a = 1 ∨ a = 2) twoVolt 0 ∧
    SetOnce finitePower (.four (FourQC.new tau 0)) tau (· < 4) fourVolt 0 ∧
    SetOnce finitePower (.b6 (B6.new tau 0)) tau (· < 8) b6Volt (fun _ => -1 / 2) ∧
    SetOnce contPower (.two (CTwo.new tau 0)) tau (·.length = 1) twoDuty 0 ∧
    SetOnce contPower (.four (CFour.new tau 0)) tau (·.length = 1) fourDuty 0 ∧
    SetOnce contPower (.b6 (CB6.new tau 0)) tau (·.length = 3) b6Duty (fun _ => -1 / 2) ∧
    SetOnce finiteMulti [.four (FourQC.new tau 0), .four (FourQC.new tau 0)] tau (fun a => ∃ x y, a = [x, y] ∧ x < 4 ∧ y < 4)
      (fun a => Fin.append (fourVolt (a.getD 0 0)) (fourVolt (a.getD 1 0))) 0 ∧
    SetOnce contMulti [.four (CFour.new tau 0), .four (CFour.new tau 0)] tau (·.length = 2)
      (fun a => Fin.append (fourDuty (a.take 1)) (fourDuty (a.drop 1))) 0 := by
  refine ⟨⟨_, _, _, _, fTwo_realises tau 0, ⟨0, _, rfl, rfl, rfl, rfl, by norm_num⟩, fun a ha => ⟨by omega, fun δ => ⟨legTimes_zero _ _ _, fun o i => ?_⟩⟩, ?_⟩,
    ⟨_, _, _, _, fFour_realises tau 0, ⟨_, fresh_ffour tau⟩, fun a ha => ⟨ha, four_out tau ha⟩, fFour_reset⟩,
    ⟨_, _, _, _, fB6_realises tau 0, ⟨0, _, rfl, ⟨rfl, rfl, rfl, by simp⟩, ⟨rfl, rfl, rfl, by simp⟩, rfl, rfl, rfl, by simp⟩,
      fun a ha => ⟨ha, fun δ => ⟨?_, fun o i => ?_⟩⟩, ?_⟩,
    ⟨_, _, _, _, cTwo_realises tau 0, ⟨(), _, rfl, rfl, rfl⟩, fun a ha => ⟨ha, fun δ => ⟨rfl, fun o i => ?_⟩⟩, ?_⟩,
    ⟨_, _, _, _, cFour_realises tau 0, ⟨(), _, rfl, ⟨rfl, rfl⟩, rfl, rfl⟩, fun a ha => ⟨ha, fun δ => ⟨rfl, fun o i => cfour_out tau a i⟩⟩,
      fun c _ h => cFour_reset c h⟩,
    ⟨_, _, _, _, cB6_realises tau 0, ⟨(), _, rfl, ⟨rfl, rfl⟩, ⟨rfl, rfl⟩, rfl, rfl⟩, fun a ha => ⟨ha, fun δ => ⟨rfl, fun o i => ?_⟩⟩, ?_⟩,
    ⟨_, _, _, _, finitePair_realises (fFour_realises tau 0) (fFour_realises tau 0) (by rintro _ _ ⟨c, rfl, -⟩; rfl) (by rintro _ _ ⟨c, rfl, -⟩; rfl),
      ⟨((0, 0), (0, 0)), _, _, rfl, fresh_ffour tau, fresh_ffour tau⟩, ?_, ?_⟩,
    ⟨_, _, _, _, contPair_realises (cFour_realises tau 0) (cFour_realises tau 0) (by rintro _ _ ⟨c, rfl, -⟩; rfl) (by rintro _ _ ⟨c, rfl, -⟩; rfl),
      ⟨((), ()), _, _, rfl, ⟨_, rfl, ⟨rfl, rfl⟩, rfl, rfl⟩, ⟨_, rfl, ⟨rfl, rfl⟩, rfl, rfl⟩⟩, fun a ha => ⟨ha, fun δ => ⟨?_, fun o i => ?_⟩⟩, ?_⟩⟩
  · funext k
    simp only [fTwo, legNext_zero]
    rcases ha with rfl | rfl <;> simp [legOut, twoVolt]
  · rintro c δ ⟨c', rfl, -⟩
    simp [finitePower, FConv.reset, TwoQC.reset]
  · simp only [fB6, legTimes_zero, List.cons_append, List.nil_append, sortedSet_thrice]
  · funext k
    simp only [fB6, legNext_zero, b6Legs, b6Volt]
    split_ifs <;> simp [legOut] <;> norm_num
  · rintro c δ ⟨c', rfl, -⟩
    simp [finitePower, FConv.reset, B6.reset]
    norm_num
  · funext k
    simp only [smooth, cTwoOut, dead_zero, sub_zero, clip_unit, twoDuty]
  · rintro c δ ⟨c', rfl, -⟩
    simp [contPower, CConv.reset]
  · funext k
    simp only [smooth, cB6Out, dead_zero, sub_zero, clip_unit, clip_halfway, b6Duty]
  · rintro c δ ⟨c', rfl, -⟩
    simp [contPower, CConv.reset]
    norm_num
  · rintro a ⟨x, y, rfl, hx, hy⟩
    refine ⟨⟨x, y, rfl, hx, hy⟩, fun δ => ⟨?_, fun o i => ?_⟩⟩
    · simp only [finitePair, pair, List.getD_cons_zero, List.getD_cons_succ, (four_out tau hx δ.1).1, (four_out tau hy δ.2).1, List.cons_append,
        List.nil_append, sortedSet_twice]
    · simp only [finitePair, pair, List.getD_cons_zero, List.getD_cons_succ, (four_out tau hx δ.1).2, (four_out tau hy δ.2).2]
  · rintro cs δ ⟨c0, c1, rfl, ⟨d0, rfl, -⟩, d1, rfl, -⟩
    simp [finiteMulti, multiReset, FConv.reset, FourQC.reset]
  · simp only [contPair, pair, smooth, List.cons_append, List.nil_append, sortedSet_twice]
  · simp only [contPair, pair, smooth, cfour_out]
  · rintro cs δ ⟨c0, c1, rfl, ⟨d0, rfl, -⟩, d1, rfl, -⟩
    simp [contMulti, cMultiReset, CConv.reset]

/-! ## Drives -/

theorem echo_refl {α : Type} (x : Except Err α) : Echo Eq x x := by
  cases x <;> exact rfl

theorem dc_hold {m n nV : ℕ} {A : Type} {iIn : List ℝ → List ℝ} {tq : List ℝ → ℝ} {idx : List ℕ} {limits : List ℝ}
    (hi : ∀ x : Fin (1 + m) → ℝ, ∃ i : Fin n → ℝ, iIn (dcY x).motor = List.ofFn i) :
    HoldFrame (A := A) (m := m) (n := n) (dcFrame iIn tq idx nV 1) (dcResetReport tq idx) limits dcY List.ofFn Eq :=
  ⟨fun _ _ => rfl, hi, fun _ _ => rfl, fun _ _ _ _ _ => echo_refl _, fun _ _ _ => echo_refl _⟩

/-- C138 for the DC motors: all states, with every converter that sets its switches once and loads whose equation does not depend on time. -/
theorem c138_dc (pe : PermExParams ℝ) (mp : DcParams ℝ) {A C P : Type} (pw : Power A C) (legal : A → Prop) (src : Source P) (load : AnyLoad)
    (limits : List ℝ) (v : ℝ) (hs : load.Static) (hv : FixedVoltage src v) :
    (∀ out : A → Fin 1 → ℝ,
      HeldAlike pw out legal src load (permExTorque pe) (fun x (u : List ℝ) w => permExOde pe x (fun i => u.getD i 0) w) dcY ofDcY
        (dcFrame id (dcTq (permExTorque pe)) [0] 1 1) (dcResetReport (dcTq (permExTorque pe)) [0]) limits Eq ∧
      HeldAlike pw out legal src load (seriesTorque mp) (fun x (u : List ℝ) w => seriesOde mp x (fun i => u.getD i 0) w) dcY ofDcY
        (dcFrame id (dcTq (seriesTorque mp)) [0] 1 1) (dcResetReport (dcTq (seriesTorque mp)) [0]) limits Eq ∧
      HeldAlike pw out legal src load (dcTorque mp) (fun x (u : List ℝ) w => shuntOde mp x (fun i => u.getD i 0) w) dcY ofDcY
        (dcFrame (fun l => [l.getD 0 0 + l.getD 1 0]) (dcTq (dcTorque mp)) [0, 1] 1 1) (dcResetReport (dcTq (dcTorque mp)) [0, 1]) limits Eq) ∧
    ∀ out : A → Fin (1 + 1) → ℝ,
      HeldAlike pw out legal src load (dcTorque mp) (fun x (u : List ℝ) w => dcOde mp x (fun i => u.getD i 0) w) dcY ofDcY
        (dcFrame id (dcTq (dcTorque mp)) [0, 1] 2 1) (dcResetReport (dcTq (dcTorque mp)) [0, 1]) limits Eq := by
  refine ⟨fun out => ⟨held_of (dc_hold fun x => ⟨fun i => x (Fin.natAdd 1 i), rfl⟩) hs hv, held_of (dc_hold fun x => ⟨fun i => x (Fin.natAdd 1 i), rfl⟩) hs hv, held_of (dc_hold fun x => ?_) hs hv⟩,
    fun out => held_of (dc_hold fun x => ⟨fun i => x (Fin.natAdd 1 i), rfl⟩) hs hv⟩
  exact ⟨fun _ => (dcY x).motor.getD 0 0 + (dcY x).motor.getD 1 0, by simp⟩

/-- A permanently excited motor with a four quadrant converter, an ideal supply of 60 V and a load with friction: a step of 0.3 s in six intervals is worth
three steps of 0.1 s in two intervals; the motor is reversed after the first step and reset once. -/
example (pe : PermExParams ℝ) (limits : List ℝ) :
    List.Forall₂ (Echo Eq)
      (answers (eulerParts finitePower (idealSource 60) (.poly 0 1 0 1 1 []) (permExTorque pe)
        (fun x (u : List ℝ) w => permExOde pe x (fun i => u.getD i 0) w) none dcY ofDcY) (dcFrame id (dcTq (permExTorque pe)) [0] 1 1)
        (dcResetReport (dcTq (permExTorque pe)) [0]) ((3 : ℕ) * (1 / 10)) limits
        ⟨0, 0, ⟨0, 0, 6⟩, .four (FourQC.new ((3 : ℕ) * (1 / 10)) 0), ()⟩ [.inl (dcY (m := 1) ![0, 0]), .inr 1, .inr 2, .inl (dcY (m := 1) ![1, 2])])
      (everyKth 3 [.inl (dcY (m := 1) ![0, 0]), .inr 1, .inr 2, .inl (dcY (m := 1) ![1, 2])]
        (answers (eulerParts finitePower (idealSource 60) (.poly 0 1 0 1 1 []) (permExTorque pe)
          (fun x (u : List ℝ) w => permExOde pe x (fun i => u.getD i 0) w) none dcY ofDcY) (dcFrame id (dcTq (permExTorque pe)) [0] 1 1)
          (dcResetReport (dcTq (permExTorque pe)) [0]) (1 / 10) limits ⟨0, 0, ⟨0, 0, 2⟩, .four (FourQC.new (1 / 10) 0), ()⟩
          [.inl (dcY (m := 1) ![0, 0]), .inr 1, .inr 1, .inr 1, .inr 2, .inr 2, .inr 2, .inl (dcY (m := 1) ![1, 2])])) :=
  ((c138_dc pe ⟨1, 1, 1, 1, 1⟩ finitePower (· < 4) (idealSource 60) (.poly 0 1 0 1 1 []) limits 60 trivial
    ⟨fun _ _ _ => rfl, fun _ => rfl⟩).1 fourVolt).1 3 2 (1 / 10) 0 none none ⟨0, 0, ⟨0, 0, 6⟩, .four (FourQC.new ((3 : ℕ) * (1 / 10)) 0), ()⟩
    ⟨0, 0, ⟨0, 0, 2⟩, .four (FourQC.new (1 / 10) 0), ()⟩ (dcY (m := 1) ![0, 0]) [.inr 1, .inr 2, .inl (dcY (m := 1) ![1, 2])] (by norm_num) (by norm_num)
    (c138_converters _).2.1 (c138_converters _).2.1 rfl rfl (by simp)

theorem same_div {names told : List String} {limits s s' : List ℝ} (h1 : s.length = names.length) (h2 : s'.length = names.length)
    (he : ∀ n ∈ told, readState names s' n = readState names s n) : Echo (SameIn names told) (divLimits s limits) (divLimits s' limits) := by
  unfold divLimits
  by_cases h : names.length = limits.length
  · rw [if_pos (by rw [h1, h]), if_pos (by rw [h2, h])]
    exact ⟨by simp [h1, h2], fun n hn => by rw [read_div, read_div, he n hn]⟩
  · rw [if_neg (by rw [h1]; exact h), if_neg (by rw [h2]; exact h)]
    exact rfl

theorem echo_same (names told : List String) (x : Except Err (List ℝ)) : Echo (SameIn names told) x x := by
  cases x
  · exact rfl
  · exact ⟨rfl, fun _ _ => rfl⟩

theorem scim_same (limits : List ℝ) (om T : ℝ) (i : Fin 3 → ℝ) (idq idq' : Fin 2 → ℝ) (w : Fin 3 → ℝ) (udq udq' : Fin 2 → ℝ) (e v : ℝ) :
    Echo (SameIn scimStates scimFixed)
      (divLimits ([om] ++ [T] ++ l3 i ++ l2 idq ++ List.ofFn w ++ l2 udq ++ [e] ++ [v]) limits)
      (divLimits ([om] ++ [T] ++ l3 i ++ l2 idq' ++ List.ofFn w ++ l2 udq' ++ [e] ++ [v]) limits) := by
  refine same_div (by simp [scimStates_eq, l3, l2]) (by simp [scimStates_eq, l3, l2]) fun n hn => ?_
  simp only [scimFixed, List.mem_cons, List.not_mem_nil, or_false] at hn
  rcases hn with rfl | rfl | rfl | rfl | rfl | rfl | rfl | rfl | rfl | rfl <;> simp [scimStates_eq, readState, l3, l2]

theorem scim_hold {A : Type} (mp : ImParams ℝ) {f : Frame ℝ ImY (Fin 2 → ℝ) A} (hf : LikeScim (imTq mp) f) (limits : List ℝ) :
    HoldFrame (m := 5) (n := 3) f (scimReset (imTq mp)) limits imY t23 (SameIn scimStates scimFixed) := by
  refine ⟨hf.action, fun x => ⟨t32 ![x 1, x 2], ?_⟩, fun x w => ?_, fun x x' z w v => ?_, fun y w v => ?_⟩
  · rw [hf.iIn]
    exact l3_ofFn _
  · rw [hf.lastU]
    simp only [scimFrame, three_ofFn]
    rfl
  · rw [hf.report]
    simp only [scimFrame, three_ofFn, Except.map, Except.bind, phases_free]
    exact scim_same _ _ _ _ _ _ _ _ _ _ _
  · exact echo_same _ _ _

/-- C138 for the squirrel cage motor with the switches or duty cycles of the phases as actions: all states except those in field coordinates. -/
theorem c138_scim_partial (mp : ImParams ℝ) {A C P : Type} (pw : Power A C) (out : A → Fin 3 → ℝ) (legal : A → Prop) (src : Source P) (load : AnyLoad)
    (limits : List ℝ) (v : ℝ) (hs : load.Static) (hv : FixedVoltage src v) (f : Frame ℝ ImY (Fin 2 → ℝ) A) (hf : LikeScim (imTq mp) f) :
    HeldAlike pw out legal src load (imTorque mp) (scimOde mp) imY ofImY f (scimReset (imTq mp)) limits (SameIn scimStates scimFixed) :=
  held_of (scim_hold mp hf limits) hs hv

/-! ## Synchronous motors -/

/-- Synchronous motors do not: the voltages are transformed with the angle at the beginning of the step, so that in a long step they turn with the
rotor, while in short steps they stand still.  If the rotor turns by a quarter turn (electrically) in a short step, two of them and a long one end with
different currents `i_sd`. -/
theorem c138_sync_violated (mp : SyncParams ℝ) (hd : mp.ld ≠ 0) (v omega d : ℝ) (hv : v ≠ 0) (hd0 : d ≠ 0) (hw : mp.p * omega * d = Real.pi / 2)
    (limits : List ℝ) (hl : limits.length = 14) (hl0 : readState syncStates limits "i_sd" ≠ 0) :
    ¬ HeldAlike contPower b6Duty (·.length = 3) (idealSource v) .const (pmsmTorque mp) (syncOde (pmsmConstants mp)) syncY ofSyncY
      (syncFrame (syncTq (pmsmTorque mp)) false) (syncReset (syncTq (pmsmTorque mp))) limits (SameIn syncStates ["i_sd"]) := by
  intro H
  have hE := H 2 1 d (fun _ => -1 / 2) none none ⟨0, 0, ⟨0, 0, 2⟩, .b6 (CB6.new (2 * d) 0), ()⟩ ⟨0, 0, ⟨0, 0, 1⟩, .b6 (CB6.new d 0), ()⟩
    (syncY ![omega, 0, 0, 0]) [.inr [1, 0, 0]] (by norm_num) one_pos (by rw [Nat.cast_ofNat]; exact (c138_converters (2 * d)).2.2.2.2.2.1)
    (c138_converters d).2.2.2.2.2.1 rfl rfl (by simp)
  simp only [heldOps, List.replicate, List.cons_append, List.nil_append, answers, everyKth, List.take_succ_cons, List.take_zero,
    List.getLast?_cons_cons, List.getLast?_singleton, Option.toList_some] at hE
  obtain ⟨-, hE⟩ := List.forall₂_cons.1 hE
  obtain ⟨hE, -⟩ := List.forall₂_cons.1 hE
  obtain ⟨p, hp⟩ : ∃ p, p = eulerParts contPower (idealSource v) .const (pmsmTorque mp) (syncOde (pmsmConstants mp)) none syncY ofSyncY := ⟨_, rfl⟩
  rw [← hp] at hE
  obtain ⟨f, hf⟩ : ∃ f, f = syncFrame (syncTq (pmsmTorque mp)) false := ⟨_, rfl⟩
  rw [← hf] at hE
  have hstat : AnyLoad.Static .const := trivial
  -- one step
  have step : ∀ (D : ℝ) (st : St ℝ (Euler ℝ (Fin (1 + 3) → ℝ)) (CConv ℝ) Unit), IsCB6 D 0 st.conv → st.solver.nsteps ≠ 0 → st.solver.t = st.t →
      ∃ c' z, IsCB6 D 0 c' ∧ z = (euStep (core (pmsmTorque mp) (syncOde (pmsmConstants mp)) .const
          (abcToDq ![v / 2, 0, 0] (st.solver.y 3))) (D / st.solver.nsteps))^[st.solver.nsteps] st.solver.y ∧
        (simulate p f D limits st [1, 0, 0]).1 = ⟨st.t + D, st.k + 1, ⟨st.t + D, z, st.solver.nsteps⟩, c', ()⟩ ∧
        ∃ o, (simulate p f D limits st [1, 0, 0]).2 = .ok o ∧ readState syncStates o "i_sd" = z 1 / readState syncStates limits "i_sd" := by
    intro D st h1 h2 h3
    have hw : (fun k => b6Duty [1, 0, 0] k * v) = ![v / 2, 0, 0] := by
      funext k
      fin_cases k <;> (simp [b6Duty, clip]; try ring)
    obtain ⟨c', p', e1, e2⟩ := simulate_once (torque := pmsmTorque mp) (ode := syncOde (pmsmConstants mp)) (load := .const) (scratch := none)
      (toY := syncY) (ofY := ofSyncY) (f := f) (limits := limits) (d := D) (v := v) (src := idealSource v) (a := [1, 0, 0]) (b := [1, 0, 0])
      (w := b6Duty [1, 0, 0]) (i := dqToAbc ![st.solver.y 1, st.solver.y 2] (st.solver.y 3)) (δ := ())
      (u := abcToDq ![v / 2, 0, 0] (st.solver.y 3)) (cB6_realises D 0) hstat ⟨fun _ _ _ => rfl, fun _ => rfl⟩ h1 (by rw [hf]; rfl) rfl ⟨D, rfl⟩
      (by funext k; simp only [smooth, cB6Out, dead_zero, sub_zero, clip_unit, clip_halfway, b6Duty]) (by rw [hf]; exact l3_ofFn _)
      (by rw [hf, hw]; simp only [syncFrame, three_ofFn]; rfl) h2 h3
    rw [← hp] at e2
    refine ⟨c', _, e1, rfl, by rw [e2], ?_⟩
    rw [e2, hf]
    simp only [syncFrame, three_ofFn, Except.map, Except.bind, divLimits]
    generalize (euStep (core (pmsmTorque mp) (syncOde (pmsmConstants mp)) .const
          (abcToDq ![v / 2, 0, 0] (st.solver.y 3))) (D / st.solver.nsteps))^[st.solver.nsteps] st.solver.y = z
    rw [if_pos (by simp [hl, syncY, l3, l2])]
    refine ⟨_, rfl, ?_⟩
    rw [read_div]
    simp [syncStates_eq, readState, syncY, l3, l2]
  obtain ⟨s0, hs0⟩ : ∃ s, s = (reset p (syncReset (syncTq (pmsmTorque mp))) limits ⟨0, 0, ⟨0, 0, 2⟩, .b6 (CB6.new (2 * d) 0), ()⟩
    (syncY ![omega, 0, 0, 0])).1 := ⟨_, rfl⟩
  obtain ⟨s1, hs1⟩ : ∃ s, s = (reset p (syncReset (syncTq (pmsmTorque mp))) limits ⟨0, 0, ⟨0, 0, 1⟩, .b6 (CB6.new d 0), ()⟩
    (syncY ![omega, 0, 0, 0])).1 := ⟨_, rfl⟩
  have x0 : ofSyncY (syncY ![omega, 0, 0, 0]) = ![omega, 0, 0, 0] := by
    funext i
    fin_cases i <;> rfl
  have y0 : s0.solver = ⟨0, ![omega, 0, 0, 0], 2⟩ := by rw [hs0, ← x0, hp]; rfl
  have y1 : s1.solver = ⟨0, ![omega, 0, 0, 0], 1⟩ := by rw [hs1, ← x0, hp]; rfl
  have t0 : s0.t = 0 := by rw [hs0]; rfl
  have t1 : s1.t = 0 := by rw [hs1]; rfl
  have c0 : IsCB6 (2 * d) 0 s0.conv := by rw [hs0, hp]; exact ⟨_, rfl, ⟨rfl, rfl⟩, ⟨rfl, rfl⟩, rfl, rfl⟩
  have c1 : IsCB6 d 0 s1.conv := by rw [hs1, hp]; exact ⟨_, rfl, ⟨rfl, rfl⟩, ⟨rfl, rfl⟩, rfl, rfl⟩
  rw [Nat.cast_ofNat, ← hs0, ← hs1] at hE
  obtain ⟨-, a, -, ha, -, o, ho, ro⟩ := step (2 * d) s0 c0 (by rw [y0]; norm_num) (by rw [y0, t0])
  obtain ⟨c2, b, hc2, hb, e2, -⟩ := step d s1 c1 (by rw [y1]; norm_num) (by rw [y1, t1])
  rw [e2] at hE
  obtain ⟨-, c, -, hc, -, o', ho', ro'⟩ := step d ⟨s1.t + d, s1.k + 1, ⟨s1.t + d, b, s1.solver.nsteps⟩, c2, ()⟩ hc2 (by rw [y1]; norm_num) rfl
  rw [ho, ho'] at hE
  have h := hE.2 "i_sd" (by simp)
  rw [ro, ro', div_left_inj' hl0] at h
  rw [y0] at ha
  rw [y1] at hb hc
  have cr : ∀ (u : Fin 2 → ℝ) (x : Fin (1 + 3) → ℝ), core (pmsmTorque mp) (syncOde (pmsmConstants mp)) .const u x =
      ![0, (-mp.rs * x 1 + u 0 + mp.lq * mp.p * (x 0 * x 2)) / mp.ld,
        (-mp.psiP * mp.p * x 0 - mp.rs * x 2 + u 1 - mp.ld * mp.p * (x 0 * x 1)) / mp.lq, mp.p * x 0] := by
    intro u x
    unfold core
    rw [pmsm_ode]
    funext i
    fin_cases i <;> rfl
  have two : (2 * d / ((2 : ℕ) : ℝ)) = d := by push_cast; ring
  have one : d / ((1 : ℕ) : ℝ) = d := by simp
  simp only [two, one, Function.iterate_one] at ha hb hc
  rw [show (![omega, 0, 0, 0] : Fin (1 + 3) → ℝ) 3 = 0 from rfl] at ha hb
  rw [Function.iterate_succ_apply, Function.iterate_one, ← hb] at ha
  have b3 : b 3 = Real.pi / 2 := by
    rw [hb, euStep, cr]
    change 0 + d * (mp.p * omega) = _
    rw [← hw]
    ring
  rw [ha, hc] at h
  simp only [euStep, cr, Pi.add_apply, Pi.smul_apply, smul_eq_mul] at h
  change b 1 + d * ((-mp.rs * b 1 + abcToDq ![v / 2, 0, 0] (b 3) 0 + mp.lq * mp.p * (b 0 * b 2)) / mp.ld) =
    b 1 + d * ((-mp.rs * b 1 + abcToDq ![v / 2, 0, 0] 0 0 + mp.lq * mp.p * (b 0 * b 2)) / mp.ld) at h
  have u0 : abcToDq ![v / 2, 0, 0] 0 0 = v / 3 := by
    simp [abcToDq, qInv, q, t23, Matrix.mulVec, dotProduct, Fin.sum_univ_succ]
  have u1 : abcToDq ![v / 2, 0, 0] (Real.pi / 2) 0 = 0 := by
    simp [abcToDq, qInv, q, t23, Matrix.mulVec, dotProduct, Fin.sum_univ_succ]
  rw [b3, u0, u1] at h
  have : d * (v / 3) / mp.ld = 0 := by linear_combination -h
  rcases div_eq_zero_iff.1 this with h | h
  · rcases mul_eq_zero.1 h with h | h
    · exact hd0 h
    · exact hv (by linarith)
  · exact hd h

/-- a motor and a speed with these properties -/
example : ∃ (mp : SyncParams ℝ) (omega d : ℝ), mp.ld ≠ 0 ∧ d ≠ 0 ∧ mp.p * omega * d = Real.pi / 2 :=
  ⟨⟨2, 1, 1, 1, 1⟩, Real.pi / 4, 1, by norm_num, by norm_num, by ring⟩

end

end GEM.Props
