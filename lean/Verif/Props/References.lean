import Verif.Proofs.References

/-!
# Properties of reference generators (C41–C44, C73–C76, C81)
-/

set_option linter.unusedSectionVars false

namespace GEM.Props

open GEM GEM.Refs

variable {G K σ : Type}

/-! ## C41: margins -/

/-- The sub-episoded generators of the package, with the configuration of their trajectories. -/
inductive Kind where
  | wiener (sigma : Range)
  | laplace (sigma : Range)
  | sinus (w : Wave)
  | sawtooth (w : Wave)
  | triangle (w : Wave)
  | step (w : Wave)

/-- The class' `_reset_reference`. -/
noncomputable def Kind.make (R : Rng G) : Kind → ℝ × ℝ → ℝ → ℤ → G → G × Except Err (List ℝ)
  | .wiener s => wienerMake R s
  | .laplace s => laplaceMake R s
  | .sinus w => sinMake R w
  | .sawtooth w => sawMake R w
  | .triangle w => triMake R w
  | .step w => stepMake R w

theorem kind_bounded (R : Rng G) (k : Kind) (c : SubCfg G ℝ) (hc : c.make = k.make R) : Bounded c := by
  intro m v n g l hm h
  rw [hc] at h
  cases k with
  | wiener s => exact walkMake_inside _ _ _ _ _ _ _ _ hm h
  | laplace s => exact walkMake_inside _ _ _ _ _ _ _ _ hm h
  | sinus w => exact sinMake_inside R w m v n g l hm h
  | sawtooth w => exact sawMake_inside R w m v n g l hm h
  | triangle w => exact triMake_inside R w m v n g l hm h
  | step w => exact stepMake_inside R w m v n g l hm h

/-- Calls of the user, and changes of the margin by a callback. -/
inductive MOp where
  | call (op : Op ℝ)
  | margin (m : ℝ × ℝ)

/-- A history; every answer together with the margin in force. -/
def runM (c : SubCfg G ℝ) : SubSt G ℝ → List MOp → List ((ℝ × ℝ) × Out ℝ)
  | _, [] => []
  | st, .call op :: ops => (st.margin, (Refs.apply (subGen c) st op).2) :: runM c (Refs.apply (subGen c) st op).1 ops
  | st, .margin m :: ops => runM c { st with margin := m } ops

/-- The margins never shrink. -/
def Widening : ℝ × ℝ → List MOp → Prop
  | _, [] => True
  | m, .call _ :: ops => Widening m ops
  | m, .margin m' :: ops => m'.1 ≤ m.1 ∧ m.2 ≤ m'.2 ∧ Widening m' ops

/-- C41: every reference observation of every generator of the package, in every history of resets and observations, lies
inside the limit margin in force, for every outcome of the random draws and every initial reference; also when a callback
widens the margin in between. -/
theorem c41_margin (R : Rng G) (k : Kind) (c : SubCfg G ℝ) (hc : c.make = k.make R) (st : SubSt G ℝ)
    (h0 : st.reference = none) (hm : st.margin.1 ≤ st.margin.2) (ops : List MOp) (hw : Widening st.margin ops) :
    ∀ p ∈ runM c st ops, ∀ o, p.2.observation = some o → Inside p.1 o := by
  have hb := kind_bounded R k c hc
  have key : ∀ (ops : List MOp) (st : SubSt G ℝ), StInside st → st.margin.1 ≤ st.margin.2 → Widening st.margin ops →
      ∀ p ∈ runM c st ops, ∀ o, p.2.observation = some o → Inside p.1 o := by
    intro ops
    induction ops with
    | nil => intro st _ _ _ p hp; simp [runM] at hp
    | cons op ops ih =>
      intro st hs hm hw p hp o ho
      cases op with
      | margin m =>
        obtain ⟨h1, h2, h3⟩ := hw
        refine ih { st with margin := m } ?_ (by simp only; linarith) h3 p hp o ho
        intro l hl x hx
        have := hs l hl x hx
        exact ⟨by simp only; linarith, by simp only; linarith⟩
      | call op =>
        have step : StInside (Refs.apply (subGen c) st op).1 ∧ (Refs.apply (subGen c) st op).1.margin = st.margin ∧
            ∀ o, (Refs.apply (subGen c) st op).2.observation = some o → Inside st.margin o := by
          cases op with
          | reset s i =>
            obtain ⟨h1, h2, h3⟩ := subReset_inside hb hm hs i
            refine ⟨h1, h2, ?_⟩
            intro o ho
            simp only [Refs.apply, subGen] at ho
            cases hr : (subReset c st i).2 with
            | error e => simp [hr, Out.observation] at ho
            | ok a =>
              obtain ⟨r, o'⟩ := a
              simp only [hr, Out.observation, Option.some.injEq] at ho
              subst ho
              exact h3 _ _ hr
          | ref s => exact ⟨hs, rfl, by simp [Refs.apply, subGen, subRef, Out.observation]⟩
          | obs s =>
            obtain ⟨h1, h2, h3⟩ := subObs_inside hb hm hs
            refine ⟨h1, h2, ?_⟩
            intro o ho
            simp only [Refs.apply, subGen] at ho
            cases hr : (subObs c st).2 with
            | error e => simp [hr, Out.observation] at ho
            | ok a =>
              simp only [hr, Out.observation, Option.some.injEq] at ho
              subst ho
              exact h3 _ hr
        simp only [runM, List.mem_cons] at hp
        rcases hp with rfl | hp
        · exact step.2.2 o ho
        · refine ih _ step.1 (by rw [step.2.1]; exact hm) ?_ p hp o ho
          rw [step.2.1]; exact hw
  exact key ops st (by intro l hl; rw [h0] at hl; simp at hl) hm hw

/-- C41 (constant and zero references): in every history every answer is the constant, inside the announced space, and the
zero generator has nothing to observe. -/
theorem c41_constant {K : Type} [Zero K] [Preorder K] (name : String) (m : List Bool) (v : K) (n : ℕ) (ops : List (Op K)) :
    (∀ a ∈ (Refs.run (constGen name m v) () ops).2, a.isOk = true ∧ ∀ o, a.observation = some o →
      o = [v] ∧ Within (constGen name m v).low (constGen name m v).high o) ∧
    (∀ a ∈ (Refs.run (zeroGen (K := K) n) () ops).2, a.isOk = true ∧ ∀ o, a.observation = some o →
      Within (zeroGen (K := K) n).low (zeroGen (K := K) n).high o) := by
  constructor
  · induction ops with
    | nil => simp [Refs.run]
    | cons op ops ih =>
      intro a ha
      simp only [Refs.run, List.mem_cons] at ha
      rcases ha with rfl | ha
      · cases op <;> simp [Refs.apply, constGen, baseReset, Call.bind, Out.isOk, Out.observation, Within]
      · exact ih a ha
  · induction ops with
    | nil => simp [Refs.run]
    | cons op ops ih =>
      intro a ha
      simp only [Refs.run, List.mem_cons] at ha
      rcases ha with rfl | ha
      · cases op <;> simp [Refs.apply, zeroGen, baseReset, Call.bind, Out.isOk, Out.observation, Within]
      · exact ih a ha

/-- C41 (reference space): for every state whose space contains 0 and every margin factor in `[0, 1]` (given as number, as
pair, or as ratio of nominal value and limit), the margin is a proper interval inside the state space that contains the
default initial reference 0. -/
theorem c41_space (nominal limit low high : ℝ) (hl : low ≤ 0) (hh : 0 ≤ high) (m : Margin ℝ) (p : ℝ × ℝ)
    (hm : match m with
      | .none => 0 ≤ nominal ∧ nominal ≤ limit
      | .num x => 0 ≤ x ∧ x ≤ 1
      | .pair a b => (0 ≤ a ∧ a ≤ 1) ∧ 0 ≤ b ∧ b ≤ 1
      | .other => True)
    (hp : setMargin nominal limit low high m = .ok p) :
    low ≤ p.1 ∧ p.1 ≤ 0 ∧ 0 ≤ p.2 ∧ p.2 ≤ high := by
  have key : ∀ x y : ℝ, 0 ≤ x → x ≤ 1 → 0 ≤ y → y ≤ 1 → low ≤ x * low ∧ x * low ≤ 0 ∧ 0 ≤ y * high ∧ y * high ≤ high := by
    intro x y h1 h2 h3 h4
    refine ⟨by nlinarith, by nlinarith, by positivity, by nlinarith⟩
  cases m with
  | none =>
    simp only [setMargin, Except.ok.injEq] at hp
    subst hp
    simp only at hm
    have h1 : 0 ≤ nominal / limit := div_nonneg hm.1 (hm.1.trans hm.2)
    have h2 : nominal / limit ≤ 1 := div_le_one_of_le₀ hm.2 (hm.1.trans hm.2)
    exact key _ _ h1 h2 h1 h2
  | num x =>
    simp only [setMargin, Except.ok.injEq] at hp
    subst hp
    exact key _ _ hm.1 hm.2 hm.1 hm.2
  | pair a b =>
    simp only [setMargin, Except.ok.injEq] at hp
    subst hp
    exact key _ _ hm.1.1 hm.1.2 hm.2.1 hm.2.2
  | other => simp [setMargin] at hp

/-- the case of the default speed reference: nominal 300, limit 400, both signs -/
example : setMargin (300 : ℝ) 400 (-1) 1 .none = .ok (-(3 / 4), 3 / 4) := by
  simp only [setMargin]; norm_num

/-- C41 (initial reference): the reference array returned by `reset` carries at the referenced state the given initial
reference, 0, or for a Wiener process a number of its initial range. -/
theorem c41_initial {R : Rng G} (hR : RngOk R) (c : SubCfg G ℝ) (a b : ℝ) (hab : a ≤ b)
    (hi : c.initial = none ∨ c.initial = some (wienerInitial R a b)) (st : SubSt G ℝ) (s : List ℝ)
    (init : Option (List ℝ)) (r o : List ℝ) (h : ((subGen c).reset st s init).2 = .ok (r, o)) :
    ∃ v, r = place c.mask v ∧
      ((∃ x, init = some x ∧ pick c.mask x = .ok v) ∨ (init = none ∧ c.initial = none ∧ v = 0) ∨
        (init = none ∧ a ≤ v ∧ v ≤ b)) := by
  have base : ∀ st' : SubSt G ℝ, (baseReset (subRef c) (subObs c) st').2 = .ok (r, o) → r = place c.mask st'.value := by
    intro st' h
    simp only [baseReset, subRef, Call.bind] at h
    split at h
    · simp only [Except.ok.injEq, Prod.mk.injEq] at h; exact h.1.symm
    · simp at h
  have withSome : ∀ (st' : SubSt G ℝ) x, (subResetWith c st' (some x)).2 = .ok (r, o) →
      ∃ v, r = place c.mask v ∧ pick c.mask x = .ok v := by
    intro st' x h
    simp only [subResetWith] at h
    split at h
    · simp at h
    · rename_i v hv
      exact ⟨v, base _ h, hv⟩
  simp only [subGen, subReset] at h
  split at h
  · rename_i draw hd
    rcases hi with hi | hi
    · rw [hi] at hd; simp at hd
    · rw [hi] at hd
      simp only [Option.some.injEq] at hd
      subst hd
      obtain ⟨v, h1, h2⟩ := withSome _ _ h
      refine ⟨v, h1, Or.inr (Or.inr ⟨rfl, ?_⟩)⟩
      have hv : ∀ (m : List Bool) (y : ℝ), pick m (place m y) = .ok v → v = y := by
        intro m y
        induction m with
        | nil => simp [pick]
        | cons b m ih =>
          cases b with
          | true => simp only [place, List.map_cons, pick, if_true, Except.ok.injEq]; exact fun h => h.symm
          | false => simpa [place, pick] using ih
      rw [hv _ _ h2]
      simp only [wienerInitial]
      obtain ⟨u0, u1⟩ := hR.uniform st.gen
      constructor <;> nlinarith
  · rename_i init' _ _ hne
    cases init' with
    | some x =>
      obtain ⟨v, h1, h2⟩ := withSome _ _ h
      exact ⟨v, h1, Or.inl ⟨x, rfl, h2⟩⟩
    | none =>
      have hn : c.initial = none := by
        rcases hi with hi | hi
        · exact hi
        · exact absurd hi (hne _ rfl)
      simp only [subResetWith] at h
      exact ⟨0, base _ h, Or.inr (Or.inl ⟨rfl, hn, rfl⟩)⟩

/-! Non-trivial case for C41: a generator whose state counts its draws. -/

/-- uniform draws alternate between 1/4 and 3/4, normal draws are 1 -/
noncomputable def demoRng : Rng ℕ where
  uniform g := (g + 1, if g % 2 = 0 then 1 / 4 else 3 / 4)
  normal _ n g := (g + 1, List.replicate n 1)
  laplace _ n g := (g + 1, List.replicate n (-1))
  triangular g := (g + 1, 1 / 2)

theorem demoRng_ok : RngOk demoRng where
  uniform g := by simp only [demoRng]; split <;> norm_num
  normal s n g := by simp [demoRng]
  laplace s n g := by simp [demoRng]
  triangular g := by simp only [demoRng]; norm_num

/-- a Wiener process on the second of two states -/
noncomputable def demoCfg : SubCfg ℕ ℝ where
  name := "torque"
  mask := [false, true]
  low := -1 / 2
  high := 1 / 2
  drawLen := lenDraw demoRng (.pair 2 4)
  make := wienerMake demoRng (.pair 1 1)
  spawn n := 10 * n
  initial := some (wienerInitial demoRng (-1 / 2) (1 / 2))

example : demoCfg.make = (Kind.wiener (.pair 1 1)).make demoRng := rfl

/-- the first observation after a reset is the upper margin: 1/4 - 1/2 + 1 is cut -/
example : ((subGen demoCfg).reset (subInit (-1 / 2, 1 / 2) 3 0) [0, 0] none).2 = .ok ([0, -1 / 4], [1 / 2]) := by
  norm_num [subGen, subReset, demoCfg, subInit, wienerInitial, demoRng, subResetWith, place, pick, baseReset, subRef,
    Call.bind, subObs, newSub, lenDraw, currentValue, pyInt, wienerMake, walkMake, logRange, Except.map, nextValue, walk,
    Int.floor_eq_iff, show (2 : ℤ).toNat = 2 from rfl, List.replicate]

/-! ## C42: sub-episodes -/

/-- Initial reference of the episode a reset starts. -/
def startValue (c : SubCfg G ℝ) (st : SubSt G ℝ) (init : Option (List ℝ)) (v : ℝ) : Prop :=
  match init, c.initial with
  | none, none => v = 0
  | none, some draw => v = (draw st.gen).2
  | some x, _ => pick c.mask x = .ok v

/-- What a user has to get for calls between two resets, if `T` is the sequence of references of the episode, `v` its start
and `i` references have been shown: the next entry of `T`, respectively the entry shown last. -/
def expected (c : SubCfg G ℝ) (T : ℕ → ℝ) (v : ℝ) : ℕ → List (Op ℝ) → List (Out ℝ)
  | _, [] => []
  | i, .obs _ :: ops => .obs (.ok [T i]) :: expected c T v (i + 1) ops
  | i, .ref _ :: ops => .ref (.ok (place c.mask (if i = 0 then v else T (i - 1)))) :: expected c T v i ops
  | i, .reset _ _ :: ops => expected c T v i ops

/-- the calls between two resets -/
def NoReset (ops : List (Op ℝ)) : Prop := ∀ op ∈ ops, ∀ s i, op ≠ .reset s i

/-- `references` of the episode that starts with generator `g` and value `v`: entry `i` of the sub-episodes in a row -/
noncomputable def references (c : SubCfg G ℝ) (m : ℝ × ℝ) (g : G) (v : ℝ) (i : ℕ) : ℝ := (joined c m g v (i + 1)).getD i 0

theorem pick_place (m : List Bool) (hm : true ∈ m) (y : ℝ) : pick m (place m y) = .ok y := by
  induction m with
  | nil => simp at hm
  | cons b m ih =>
    cases b with
    | true => simp [place, pick]
    | false =>
      have : true ∈ m := by simpa using hm
      simpa [place, pick] using ih this

theorem reset_at (c : SubCfg G ℝ) (hc : Steady c) (hm : true ∈ c.mask) (st : SubSt G ℝ) (s : List ℝ)
    (init : Option (List ℝ)) (v : ℝ) (hv : startValue c st init v) :
    ∃ st', (subGen c).reset st s init = (st', .ok (place c.mask v, [st'.value])) ∧
      At c st.margin (c.spawn st.spawned) v 0 0 st' := by
  cases init with
  | some x =>
    simp only [startValue] at hv
    obtain ⟨st', h1, h2, -⟩ := subReset_at hc st v
    refine ⟨st', ?_, h2⟩
    simp only [subGen, subReset, subResetWith, hv, h1]
  | none =>
    cases hi : c.initial with
    | none =>
      simp only [startValue, hi] at hv
      obtain ⟨st', h1, h2, -⟩ := subReset_at hc st v
      refine ⟨st', ?_, h2⟩
      simp only [subGen, subReset, hi, subResetWith, ← hv, h1]
    | some draw =>
      simp only [startValue, hi] at hv
      obtain ⟨st', h1, h2, -⟩ := subReset_at hc { st with gen := (draw st.gen).1 } v
      refine ⟨st', ?_, h2⟩
      simp only [subGen, subReset, hi, subResetWith, ← hv, pick_place _ hm, h1]

theorem run_expected (c : SubCfg G ℝ) (hc : Steady c) (m : ℝ × ℝ) (g : G) (v : ℝ) (ops : List (Op ℝ)) :
    ∀ (i j : ℕ) (st : SubSt G ℝ), At c m g v i j st → NoReset ops →
      (Refs.run (subGen c) st ops).2 = expected c (references c m g v) v (i + 1) ops := by
  induction ops with
  | nil => intro i j st _ _; rfl
  | cons op ops ih =>
    intro i j st h hn
    have hn' : NoReset ops := fun o ho => hn o (by simp [ho])
    cases op with
    | reset s init => exact absurd rfl (hn (.reset s init) (by simp) s init)
    | ref s =>
      simp only [Refs.run, Refs.apply, subGen, subRef, expected]
      have := h.joined hc
      rw [if_neg (by omega), references]
      simp only [Nat.add_sub_cancel]
      rw [List.getD_eq_getElem?_getD, this]
      simp only [Option.getD_some]
      congr 1
      exact ih i j st h hn'
    | obs s =>
      obtain ⟨st', j', h1, h2, -⟩ := next_obs hc h
      simp only [Refs.run, Refs.apply, expected]
      have e : (subGen c).getObs st s = (st', .ok [st'.value]) := h1
      rw [e]
      have := h2.joined hc
      rw [references, List.getD_eq_getElem?_getD, this]
      simp only [Option.getD_some]
      congr 1
      exact ih (i + 1) j' st' h2 hn'

/-- C42: from any state, a reset followed by any calls of `get_reference` and `get_reference_observation` never raises and
never reads outside a trajectory.  The `i`-th observation (the reset shows the one with number 0) is entry `i` of the
sub-episodes written in a row, so that a new sub-episode starts exactly when the current one is used up, continuing from its
last value; `get_reference` returns the reference observed last (the one the reward uses in the next step), and the
reset returns the start value. -/
theorem c42_stream (c : SubCfg G ℝ) (hc : Steady c) (hm : true ∈ c.mask) (st : SubSt G ℝ) (s : List ℝ)
    (init : Option (List ℝ)) (v : ℝ) (hv : startValue c st init v) (ops : List (Op ℝ)) (hn : NoReset ops) :
    (Refs.run (subGen c) st (.reset s init :: ops)).2 =
      .reset (.ok (place c.mask v, [references c st.margin (c.spawn st.spawned) v 0])) ::
        expected c (references c st.margin (c.spawn st.spawned) v) v 1 ops ∧
      ∀ i, i < (joined c st.margin (c.spawn st.spawned) v (i + 1)).length := by
  obtain ⟨st', h1, h2⟩ := reset_at c hc hm st s init v hv
  refine ⟨?_, fun i => joined_length hc _ _ _ _⟩
  simp only [Refs.run, Refs.apply]
  rw [h1]
  have := h2.joined hc
  rw [show references c st.margin (c.spawn st.spawned) v 0 = st'.value by
    rw [references, List.getD_eq_getElem?_getD, this]; rfl]
  congr 1
  exact run_expected c hc _ _ _ ops 0 0 st' h2 hn

/-- C42 (histories): in every history that begins with a reset, with any number of further resets, no call raises. -/
theorem c42_no_error (c : SubCfg G ℝ) (hc : Steady c) (hm : true ∈ c.mask) (st : SubSt G ℝ) (s : List ℝ)
    (init : Option (List ℝ)) (ops : List (Op ℝ))
    (hl : ∀ op ∈ Op.reset s init :: ops, ∀ s x, op = .reset s (some x) → x.length = c.mask.length) :
    ∀ o ∈ (Refs.run (subGen c) st (.reset s init :: ops)).2, o.isOk = true := by
  have hstart : ∀ (st : SubSt G ℝ) init, (∀ x, init = some x → x.length = c.mask.length) → ∃ v, startValue c st init v := by
    intro st init h
    cases init with
    | none =>
      cases hi : c.initial with
      | none => exact ⟨0, by simp [startValue, hi]⟩
      | some d => exact ⟨(d st.gen).2, by simp [startValue, hi]⟩
    | some x =>
      have key : ∀ (m : List Bool) (x : List ℝ), true ∈ m → x.length = m.length → ∃ v, pick m x = .ok v := by
        intro m
        induction m with
        | nil => simp
        | cons b m ih =>
          intro x h1 h2
          cases x with
          | nil => simp at h2
          | cons y x =>
            cases b with
            | true => exact ⟨y, rfl⟩
            | false => simpa [pick] using ih x (by simpa using h1) (by simpa using h2)
      exact key _ x hm (h x rfl)
  have key : ∀ (ops : List (Op ℝ)) (st : SubSt G ℝ),
      (∀ op ∈ ops, ∀ s x, op = .reset s (some x) → x.length = c.mask.length) →
      (∃ m g v i j, At c m g v i j st) → ∀ o ∈ (Refs.run (subGen c) st ops).2, o.isOk = true := by
    intro ops
    induction ops with
    | nil => intro st _ _ o ho; simp [Refs.run] at ho
    | cons op ops ih =>
      intro st hl hat o ho
      have hl' : ∀ op ∈ ops, ∀ s x, op = .reset s (some x) → x.length = c.mask.length :=
        fun op hop => hl op (by simp [hop])
      obtain ⟨m, g, v, i, j, h⟩ := hat
      cases op with
      | reset s init =>
        obtain ⟨v', hv⟩ := hstart st init (fun x hx => hl (.reset s init) (by simp) s x (by rw [hx]))
        obtain ⟨st', h1, h2⟩ := reset_at c hc hm st s init v' hv
        simp only [Refs.run, Refs.apply, h1, List.mem_cons] at ho
        rcases ho with rfl | ho
        · rfl
        · exact ih st' hl' ⟨_, _, _, _, _, h2⟩ o ho
      | ref s =>
        simp only [Refs.run, Refs.apply, List.mem_cons] at ho
        rcases ho with rfl | ho
        · rfl
        · exact ih st hl' ⟨_, _, _, _, _, h⟩ o ho
      | obs s =>
        obtain ⟨st', j', h1, h2, -⟩ := next_obs hc h
        have e : (subGen c).getObs st s = (st', .ok [st'.value]) := h1
        simp only [Refs.run, Refs.apply, e, List.mem_cons] at ho
        rcases ho with rfl | ho
        · rfl
        · exact ih st' hl' ⟨_, _, _, _, _, h2⟩ o ho
  intro o ho
  obtain ⟨v', hv⟩ := hstart st init (fun x hx => hl (.reset s init) (by simp) s x (by rw [hx]))
  obtain ⟨st', h1, h2⟩ := reset_at c hc hm st s init v' hv
  simp only [Refs.run, Refs.apply, h1, List.mem_cons] at ho
  rcases ho with rfl | ho
  · rfl
  · exact key ops st' (fun op hop => hl op (by simp [hop])) ⟨_, _, _, _, _, h2⟩ o ho

/-- Ranges with which the trajectories of a class can be generated: pairs for the ranges that go through numpy, a positive
frequency for the step generator. -/
def Kind.regular : Kind → Prop
  | .wiener s | .laplace s => ∃ a b, s = .pair a b
  | .sinus w | .sawtooth w | .triangle w => w.amplitude.plain ∧ w.frequency.plain ∧ ∃ a b, w.offset = .pair a b
  | .step w => w.amplitude.plain ∧ w.frequency.plain ∧ 0 < w.frequency.least ∧ ∃ a b, w.offset = .pair a b

/-- C42 (the generators of the package): with sub-episode lengths of at least 1 every generator of the package satisfies
the hypothesis of `c42_stream`, and every drawn length lies between the given bounds (rounded down). -/
theorem c42_steady {R : Rng G} (hR : RngOk R) (k : Kind) (hk : k.regular) (r : Range) (hp : r.plain) (h1 : 1 ≤ r.least)
    (c : SubCfg G ℝ) (hc : c.make = k.make R) (hd : c.drawLen = lenDraw R r) :
    Steady c ∧ ∀ g, ∃ n, (c.drawLen g).2 = .ok n ∧ 1 ≤ n ∧ (n : ℝ) ≤ r.greatest ∧ r.least < n + 1 := by
  refine ⟨steady_of hR hp h1 hd ?_, fun g => by rw [hd]; exact lenDraw_ok hR hp h1 g⟩
  rw [hc]
  cases k with
  | wiener s => obtain ⟨a, b, rfl⟩ := hk; exact walkMake_full hR.normal a b
  | laplace s => obtain ⟨a, b, rfl⟩ := hk; exact walkMake_full hR.laplace a b
  | sinus w => exact sinMake_full R w hk.1 hk.2.1 hk.2.2
  | sawtooth w => exact sawMake_full R w hk.1 hk.2.1 hk.2.2
  | triangle w => exact triMake_full R w hk.1 hk.2.1 hk.2.2
  | step w => exact stepMake_full hR w hk.1 hk.2.1 hk.2.2.1 hk.2.2.2

theorem demoCfg_steady : Steady demoCfg :=
  (c42_steady demoRng_ok (.wiener (.pair 1 1)) ⟨1, 1, rfl⟩ (.pair 2 4) trivial (by norm_num [Range.least]) demoCfg rfl rfl).1

/-- C42 (why lengths of at least 1): the constructor accepts `episode_lengths = 0`; the first reset then reads outside the
trajectory. -/
theorem c42_zero_length {R : Rng G} (hR : RngOk R) (k : Kind) (hk : k.regular) (c : SubCfg G ℝ)
    (hc : c.make = k.make R) (hd : c.drawLen = lenDraw R (.num 0)) (hi : c.initial = none) (st : SubSt G ℝ) (s : List ℝ) :
    ((subGen c).reset st s none).2 = .error .index := by
  have hlen : ∀ g, (c.drawLen g).2 = .ok 0 := by
    intro g; rw [hd]; simp [lenDraw, currentValue, Except.map, pyInt]
  have hf : Full c.make := by
    rw [hc]
    cases k with
    | wiener s => obtain ⟨a, b, rfl⟩ := hk; exact walkMake_full hR.normal a b
    | laplace s => obtain ⟨a, b, rfl⟩ := hk; exact walkMake_full hR.laplace a b
    | sinus w => exact sinMake_full R w hk.1 hk.2.1 hk.2.2
    | sawtooth w => exact sawMake_full R w hk.1 hk.2.1 hk.2.2
    | triangle w => exact triMake_full R w hk.1 hk.2.1 hk.2.2
    | step w => exact stepMake_full hR w hk.1 hk.2.1 hk.2.2.1 hk.2.2.2
  obtain ⟨l, h1, h2⟩ := hf st.margin 0 0 (c.drawLen (c.spawn st.spawned)).1
  simp only [Nat.cast_zero] at h1
  have hl : l = [] := List.length_eq_zero_iff.1 h2
  subst hl
  have hk : (-1 : ℤ) ≤ (st.k : ℤ) := by omega
  simp only [subGen, subReset, hi, subResetWith, baseReset, subRef, Call.bind, subObs, if_pos hk, newSub, hlen, h1, nextValue,
    List.getElem?_nil]

/-- C42 (before the first reset): a new generator has drawn a length but no trajectory; an observation raises. -/
theorem c42_needs_reset (c : SubCfg G ℝ) (m : ℝ × ℝ) (n : ℤ) (hn : 1 ≤ n) (g : G) (s : List ℝ) :
    ((subGen c).getObs (subInit m n g) s).2 = .error .type := by
  have : ¬ n ≤ (0 : ℤ) := by omega
  simp [subGen, subObs, subInit, nextValue, this]

/-! ## C43: several generators at once -/

section
variable [AddCommMonoid K]

/-- entry `i` of the array that superposes the answers `l` of the generators `gs` -/
theorem superpose {gs : List (RefGen σ K)} {n : ℕ} (hlen : ∀ g ∈ gs, g.referenced.length = n) {i : ℕ} (hi : i < n)
    (hc : countTrue (gs.map (·.referenced)) i < 2) {l : List (List K)} (hl : l.length = gs.length)
    (hz : ∀ (j : ℕ) (g : RefGen σ K) (a : List K), gs[j]? = some g → l[j]? = some a →
      a.length = n ∧ (g.referenced[i]? = some false → a[i]? = some 0)) :
    (∀ (j : ℕ) (g : RefGen σ K) (a : List K), gs[j]? = some g → l[j]? = some a → g.referenced[i]? = some true →
      a[i]? = some ((l.map (fun b => b.getD i 0)).sum)) ∧
    ((∀ g ∈ gs, g.referenced[i]? = some false) → (l.map (fun b => b.getD i 0)).sum = 0) := by
  have zero : ∀ (j : ℕ) (g : RefGen σ K) (y : K), gs[j]? = some g → g.referenced[i]? = some false →
      (l.map (fun b => b.getD i 0))[j]? = some y → y = 0 := by
    intro j g y hg hf hy
    simp only [List.getElem?_map, Option.map_eq_some_iff] at hy
    obtain ⟨a, ha, rfl⟩ := hy
    have := (hz j g a hg ha).2 hf
    simp [List.getD_eq_getElem?_getD, this]
  constructor
  · intro j g a hg ha ht
    have hlt : i < a.length := by rw [(hz j g a hg ha).1]; exact hi
    have hs : (l.map (fun b => b.getD i 0)).sum = a.getD i 0 := by
      apply sum_single _ j
      · simp [ha]
      · intro j' y hne hy
        obtain ⟨g', hg'⟩ : ∃ g', gs[j']? = some g' := by
          have : j' < gs.length := by
            rw [← hl]
            by_contra hge
            rw [List.getElem?_eq_none (by simpa using hge)] at hy
            simp at hy
          exact ⟨_, List.getElem?_eq_getElem this⟩
        have hf : g'.referenced[i]? = some false := by
          have hb : i < g'.referenced.length := by rw [hlen g' (List.mem_of_getElem? hg')]; exact hi
          rw [List.getElem?_eq_getElem hb]
          congr 1
          by_contra hne'
          have htrue : g'.referenced[i] = true := by simpa using hne'
          apply hne
          exact countTrue_lt_two hc (m := g'.referenced) (m' := g.referenced) (by simp [hg']) (by simp [hg])
            (by simp [List.getD_eq_getElem?_getD, List.getElem?_eq_getElem hb, htrue])
            (by simp [List.getD_eq_getElem?_getD, ht])
        exact zero j' g' y hg' hf hy
    rw [hs, List.getD_eq_getElem?_getD, List.getElem?_eq_getElem hlt]; rfl
  · intro hall
    apply List.sum_eq_zero
    intro y hy
    obtain ⟨j, hj⟩ := List.getElem?_of_mem hy
    have hjl : j < gs.length := by
      rw [← hl]
      by_contra hge
      rw [List.getElem?_eq_none (by simpa using hge)] at hj
      simp at hj
    exact zero j gs[j] y (List.getElem?_eq_getElem hjl) (hall _ (List.getElem_mem hjl)) hj

theorem multiGen_ok {n : ℕ} {gs : List (RefGen σ K)} {M : RefGen (List σ) K} (h : multiGen n gs = .ok M) :
    gs ≠ [] ∧ (∀ i < n, countTrue (gs.map (·.referenced)) i < 2) ∧ M = {
      names := .list (gs.flatMap (fun g => g.names.iter))
      referenced := (List.range n).map (fun i => decide (0 < countTrue (gs.map (·.referenced)) i))
      low := gs.flatMap (·.low)
      high := gs.flatMap (·.high)
      reset := multiReset n gs
      getRef := multiRef gs
      getObs := multiObs gs } := by
  simp only [multiGen, multiMask] at h
  split at h
  · simp [Except.map] at h
  · rename_i h1
    split at h
    · rename_i h2
      simp only [Except.map, Except.ok.injEq] at h
      refine ⟨h1, ?_, h.symm⟩
      intro i hi
      simpa using List.all_eq_true.1 h2 i (List.mem_range.2 hi)
    · simp [Except.map] at h

theorem multiRef_ok {n : ℕ} {gs : List (RefGen σ K)} (hne : gs ≠ []) (hon : ∀ g ∈ gs, Honest n g)
    {st : List σ} (hst : st.length = gs.length) {s : List K} {l : List (List K)}
    (hl : (each (fun g t => g.getRef t s) gs st).2 = .ok l) :
    ∃ r, (multiRef gs st s).2 = .ok r ∧ r.length = n ∧
      ∀ i : ℕ, i < n → r[i]? = some ((l.map (fun b => b.getD i 0)).sum) := by
  obtain ⟨h1, -, h3⟩ := each_ok _ gs st l hl hst.symm
  have hlen : ∀ b ∈ l, b.length = n := by
    intro b hb
    obtain ⟨j, hj⟩ := List.getElem?_of_mem hb
    have hjl : j < gs.length := by
      rw [← h1]; by_contra hge; rw [List.getElem?_eq_none (by omega)] at hj; simp at hj
    obtain ⟨a, ha, hga, -⟩ := h3 j gs[j] (st[j]'(by omega)) (List.getElem?_eq_getElem hjl)
      (List.getElem?_eq_getElem (by omega))
    rw [ha] at hj
    simp only [Option.some.injEq] at hj
    subst hj
    exact ((hon _ (List.getElem_mem hjl)).2.1 _ _ _ hga).1
  cases l with
  | nil =>
    exfalso
    apply hne
    exact List.length_eq_zero_iff.1 (by simpa using h1.symm)
  | cons a l =>
    obtain ⟨r, e1, e2, e3⟩ := foldlM_addArr n l a (hlen a (by simp)) (fun b hb => hlen b (by simp [hb]))
    refine ⟨r, ?_, e2, ?_⟩
    · simp only [multiRef, hl, Except.bind, sumArrs, e1]
    · intro i hi
      rw [e3 i hi]; simp

/-- C43: a `MultipleReferenceGenerator` whose sub-generators return arrays that are zero outside their referenced states
returns their superposition: every referenced state carries the value of the one generator that references it, all other
states are zero, and every sub-generator is asked exactly once. -/
theorem c43_superposition {n : ℕ} {gs : List (RefGen σ K)} {M : RefGen (List σ) K} (hM : multiGen n gs = .ok M)
    (hon : ∀ g ∈ gs, Honest n g) (st : List σ) (hst : st.length = gs.length) (s r : List K)
    (h : (M.getRef st s).2 = .ok r) :
    r.length = n ∧
    (∀ (j : ℕ) (g : RefGen σ K) (t : σ), gs[j]? = some g → st[j]? = some t →
      (M.getRef st s).1[j]? = some (g.getRef t s).1 ∧ ∃ v, (g.getRef t s).2 = .ok v ∧
        ∀ i : ℕ, i < n → g.referenced[i]? = some true → r[i]? = v[i]?) ∧
    (∀ i : ℕ, i < n → (∀ g ∈ gs, g.referenced[i]? = some false) → r[i]? = some 0) := by
  obtain ⟨hne, hcount, rfl⟩ := multiGen_ok hM
  simp only at h ⊢
  cases hl : (each (fun g t => g.getRef t s) gs st).2 with
  | error e => simp [multiRef, hl, Except.bind] at h
  | ok l =>
    obtain ⟨r', e1, e2, e3⟩ := multiRef_ok hne hon hst hl
    rw [e1] at h
    simp only [Except.ok.injEq] at h
    subst h
    obtain ⟨h1, -, h3⟩ := each_ok _ gs st l hl hst.symm
    have hz : ∀ i : ℕ, i < n → ∀ (j : ℕ) (g : RefGen σ K) (a : List K), gs[j]? = some g → l[j]? = some a →
        a.length = n ∧ (g.referenced[i]? = some false → a[i]? = some 0) := by
      intro i hi j g a hg ha
      have hjl : j < gs.length := by
        by_contra hge; rw [List.getElem?_eq_none (by omega)] at hg; simp at hg
      obtain ⟨a', ha', hga, -⟩ := h3 j g (st[j]'(by omega)) hg (List.getElem?_eq_getElem (by omega))
      rw [ha] at ha'
      simp only [Option.some.injEq] at ha'
      subst ha'
      obtain ⟨q1, q2⟩ := (hon g (List.mem_of_getElem? hg)).2.1 _ _ _ hga
      exact ⟨q1, q2 i hi⟩
    have hlen : ∀ g ∈ gs, g.referenced.length = n := fun g hg => (hon g hg).1
    refine ⟨e2, ?_, ?_⟩
    · intro j g t hg ht
      obtain ⟨a, ha, hga, hst'⟩ := h3 j g t hg ht
      refine ⟨hst', a, hga, ?_⟩
      intro i hi htrue
      rw [e3 i hi]
      exact ((superpose hlen hi (hcount i hi) h1 (hz i hi)).1 j g a hg ha htrue).symm
    · intro i hi hall
      rw [e3 i hi, (superpose hlen hi (hcount i hi) h1 (hz i hi)).2 hall]

/-- C43 (reset): the same for the reference array returned by `reset`; the observation is the concatenation. -/
theorem c43_reset {n : ℕ} {gs : List (RefGen σ K)} {M : RefGen (List σ) K} (hM : multiGen n gs = .ok M)
    (hon : ∀ g ∈ gs, Honest n g) (st : List σ) (hst : st.length = gs.length) (s : List K) (init : Option (List K))
    (r o : List K) (h : (M.reset st s init).2 = .ok (r, o)) :
    r.length = n ∧ ∃ os : List (List K), o = os.flatten ∧ os.length = gs.length ∧
    (∀ (j : ℕ) (g : RefGen σ K) (t : σ), gs[j]? = some g → st[j]? = some t →
      (M.reset st s init).1[j]? = some (g.reset t s init).1 ∧ ∃ v w, (g.reset t s init).2 = .ok (v, w) ∧
        os[j]? = some w ∧ ∀ i : ℕ, i < n → g.referenced[i]? = some true → r[i]? = v[i]?) ∧
    (∀ i : ℕ, i < n → (∀ g ∈ gs, g.referenced[i]? = some false) → r[i]? = some 0) := by
  obtain ⟨hne, hcount, rfl⟩ := multiGen_ok hM
  simp only [multiReset] at h ⊢
  cases hl : (each (fun g t => g.reset t s init) gs st).2 with
  | error e => simp [hl, Except.bind] at h
  | ok l =>
    obtain ⟨h1, -, h3⟩ := each_ok _ gs st l hl hst.symm
    have hz : ∀ (j : ℕ) (g : RefGen σ K) (a : List K), gs[j]? = some g → (l.map Prod.fst)[j]? = some a →
        a.length = n ∧ ∀ i : ℕ, i < n → g.referenced[i]? = some false → a[i]? = some 0 := by
      intro j g a hg ha
      have hjl : j < gs.length := by
        by_contra hge; rw [List.getElem?_eq_none (by omega)] at hg; simp at hg
      obtain ⟨a', ha', hga, -⟩ := h3 j g (st[j]'(by omega)) hg (List.getElem?_eq_getElem (by omega))
      rw [List.getElem?_map, ha'] at ha
      simp only [Option.map_some, Option.some.injEq] at ha
      subst ha
      exact (hon g (List.mem_of_getElem? hg)).2.2 _ _ _ _ _ hga
    have hb : ∀ b ∈ l.map Prod.fst, b.length = n := by
      intro b hb
      obtain ⟨j, hj⟩ := List.getElem?_of_mem hb
      have hjl : j < gs.length := by
        rw [← h1]; by_contra hge; rw [List.getElem?_eq_none (by simpa using hge)] at hj; simp at hj
      exact (hz j gs[j] b (List.getElem?_eq_getElem hjl) hj).1
    obtain ⟨r', e1, e2, e3⟩ := foldlM_addArr n (l.map Prod.fst) (List.replicate n (0 : K)) (by simp) hb
    simp only [hl, Except.bind, e1, Except.map, Except.ok.injEq, Prod.mk.injEq] at h
    obtain ⟨rfl, rfl⟩ := h
    have hlen : ∀ g ∈ gs, g.referenced.length = n := fun g hg => (hon g hg).1
    have e3' : ∀ i : ℕ, i < n → r'[i]? = some (((l.map Prod.fst).map (fun b => b.getD i 0)).sum) := by
      intro i hi
      rw [e3 i hi]
      simp [List.getD_eq_getElem?_getD, hi]
    refine ⟨e2, l.map Prod.snd, rfl, by simp [h1], ?_, ?_⟩
    · intro j g t hg ht
      obtain ⟨a, ha, hga, hst'⟩ := h3 j g t hg ht
      refine ⟨hst', a.1, a.2, hga, by simp [ha], ?_⟩
      intro i hi htrue
      rw [e3' i hi]
      exact ((superpose hlen hi (hcount i hi) (by simp [h1]) (fun j g a hg ha => ⟨(hz j g a hg ha).1, (hz j g a hg ha).2 i hi⟩)).1
        j g a.1 hg (by simp [ha]) htrue).symm
    · intro i hi hall
      rw [e3' i hi, (superpose hlen hi (hcount i hi) (by simp [h1])
        (fun j g a hg ha => ⟨(hz j g a hg ha).1, (hz j g a hg ha).2 i hi⟩)).2 hall]

/-- C43 (answers): if all sub-generators answer, so does the combination. -/
theorem c43_total {n : ℕ} {gs : List (RefGen σ K)} {M : RefGen (List σ) K} (hM : multiGen n gs = .ok M)
    (hon : ∀ g ∈ gs, Honest n g) (st : List σ) (hst : st.length = gs.length) (s : List K)
    (hr : ∀ g ∈ gs, ∀ t, ∃ v, (g.getRef t s).2 = .ok v) (ho : ∀ g ∈ gs, ∀ t, ∃ v, (g.getObs t s).2 = .ok v) :
    (∃ r, (M.getRef st s).2 = .ok r) ∧ ∃ o, (M.getObs st s).2 = .ok o := by
  obtain ⟨hne, hcount, rfl⟩ := multiGen_ok hM
  obtain ⟨l, hl⟩ := each_total (fun g t => g.getRef t s) gs st hr
  obtain ⟨l', hl'⟩ := each_total (fun g t => g.getObs t s) gs st ho
  obtain ⟨r, e1, -⟩ := multiRef_ok hne hon hst hl
  refine ⟨⟨r, e1⟩, ?_⟩
  obtain ⟨h1, -, -⟩ := each_ok _ gs st l' hl' hst.symm
  have : l' ≠ [] := by
    rintro rfl
    exact hne (List.length_eq_zero_iff.1 (by simpa using h1.symm))
  exact ⟨l'.flatten, by simp [multiObs, hl', Except.bind, this]⟩

/-- C43 (nesting): a combination is again zero outside its referenced states, so that combinations can be combined. -/
theorem c43_nested {n : ℕ} {gs : List (RefGen σ K)} {M : RefGen (List σ) K} (hM : multiGen n gs = .ok M)
    (hon : ∀ g ∈ gs, Honest n g) (st : List σ) (hst : st.length = gs.length) (s r : List K)
    (h : (M.getRef st s).2 = .ok r) :
    M.referenced.length = n ∧ r.length = n ∧ ∀ i : ℕ, i < n → M.referenced[i]? = some false → r[i]? = some 0 := by
  have hs := c43_superposition hM hon st hst s r h
  obtain ⟨hne, hcount, rfl⟩ := multiGen_ok hM
  refine ⟨by simp, hs.1, ?_⟩
  intro i hi hf
  apply hs.2.2 i hi
  intro g hg
  simp only [List.getElem?_map, List.getElem?_range hi, Option.map_some, Option.some.injEq, decide_eq_false_iff_not,
    not_lt, Nat.le_zero] at hf
  have hb : i < g.referenced.length := by rw [(hon g hg).1]; exact hi
  rw [List.getElem?_eq_getElem hb]
  congr 1
  by_contra hne'
  have : 0 < countTrue (gs.map (·.referenced)) i := by
    obtain ⟨j, hj⟩ := List.getElem?_of_mem hg
    exact countTrue_pos.2 ⟨j, g.referenced, by simp [hj],
      by simp [List.getD_eq_getElem?_getD, List.getElem?_eq_getElem hb]; simpa using hne'⟩
  omega

/-- C43 (overlap): a combination is accepted exactly if it is not empty and no state is referenced by two of its
generators; otherwise `set_modules` raises. Its referenced states are those of its generators. -/
theorem c43_overlap (n : ℕ) (gs : List (RefGen σ K)) :
    (∃ M, multiGen n gs = .ok M) ↔ gs ≠ [] ∧ ∀ (i j j' : ℕ) (g g' : RefGen σ K), i < n → gs[j]? = some g → gs[j']? = some g' →
      g.referenced[i]? = some true → g'.referenced[i]? = some true → j = j' := by
  have conv : ∀ (l : List Bool) (i : ℕ), l[i]? = some true ↔ l.getD i false = true := by
    intro l i
    rw [List.getD_eq_getElem?_getD]
    cases l[i]? with
    | none => simp
    | some b => simp
  constructor
  · rintro ⟨M, hM⟩
    obtain ⟨hne, hcount, -⟩ := multiGen_ok hM
    refine ⟨hne, ?_⟩
    intro i j j' g g' hi hg hg' h1 h2
    exact countTrue_lt_two (hcount i hi) (m := g.referenced) (m' := g'.referenced) (by simp [hg]) (by simp [hg'])
      ((conv _ _).1 h1) ((conv _ _).1 h2)
  · rintro ⟨hne, hd⟩
    have : (List.range n).all (fun i => decide (countTrue (gs.map (·.referenced)) i < 2)) = true := by
      rw [List.all_eq_true]
      intro i hi
      simp only [decide_eq_true_eq]
      apply countTrue_le_one
      intro j j' m m' hj hj' hm hm'
      simp only [List.getElem?_map, Option.map_eq_some_iff] at hj hj'
      obtain ⟨g, hg, rfl⟩ := hj
      obtain ⟨g', hg', rfl⟩ := hj'
      exact hd i j j' g g' (List.mem_range.1 hi) hg hg' ((conv _ _).2 hm) ((conv _ _).2 hm')
    simp only [multiGen, multiMask, if_neg hne, this, if_true, Except.map]
    exact ⟨_, rfl⟩

/-- C43 (exceptions): two generators for one state are refused with an AssertionError. -/
theorem c43_overlap_error (n : ℕ) (gs : List (RefGen σ K)) (i j j' : ℕ) (g g' : RefGen σ K) (hi : i < n) (hne : j ≠ j')
    (hg : gs[j]? = some g) (hg' : gs[j']? = some g') (h1 : g.referenced[i]? = some true)
    (h2 : g'.referenced[i]? = some true) : multiGen n gs = .error .assertion := by
  have hnn : gs ≠ [] := by rintro rfl; simp at hg
  have : ¬ (List.range n).all (fun i => decide (countTrue (gs.map (·.referenced)) i < 2)) = true := by
    rw [List.all_eq_true]
    intro h
    have := h i (List.mem_range.2 hi)
    simp only [decide_eq_true_eq] at this
    have := countTrue_ge_two (i := i) hne (ms := gs.map (·.referenced)) (m := g.referenced) (m' := g'.referenced)
      (by simp [hg]) (by simp [hg']) (by simp [List.getD_eq_getElem?_getD, h1]) (by simp [List.getD_eq_getElem?_getD, h2])
    omega
  simp only [multiGen, multiMask, if_neg hnn, this, Except.map]
  rfl

/-- C43 (observation): the reference observation is the concatenation of the observations of the sub-generators in order;
if each of them lies in its own reference space, the whole lies in the reference space of the combination. -/
theorem c43_observation [LE K] {n : ℕ} {gs : List (RefGen σ K)} {M : RefGen (List σ) K} (hM : multiGen n gs = .ok M)
    (st : List σ) (hst : st.length = gs.length) (s o : List K) (h : (M.getObs st s).2 = .ok o) :
    ∃ os : List (List K), o = os.flatten ∧ os.length = gs.length ∧
      (∀ (j : ℕ) (g : RefGen σ K) (t : σ), gs[j]? = some g → st[j]? = some t →
        ∃ w, os[j]? = some w ∧ (g.getObs t s).2 = .ok w ∧ (M.getObs st s).1[j]? = some (g.getObs t s).1) ∧
      ((∀ (j : ℕ) (g : RefGen σ K) (w : List K), gs[j]? = some g → os[j]? = some w → Within g.low g.high w) →
        Within M.low M.high o) := by
  obtain ⟨hne, hcount, rfl⟩ := multiGen_ok hM
  simp only [multiObs] at h ⊢
  cases hl : (each (fun g t => g.getObs t s) gs st).2 with
  | error e => simp [hl, Except.bind] at h
  | ok l =>
    obtain ⟨h1, -, h3⟩ := each_ok _ gs st l hl hst.symm
    simp only [hl, Except.bind] at h
    split at h
    · simp at h
    · simp only [Except.ok.injEq] at h
      subst h
      refine ⟨l, rfl, h1, h3, ?_⟩
      intro hw
      have key : ∀ (gs : List (RefGen σ K)) (l : List (List K)), l.length = gs.length →
          (∀ (j : ℕ) (g : RefGen σ K) (w : List K), gs[j]? = some g → l[j]? = some w → Within g.low g.high w) →
          Within (gs.flatMap (·.low)) (gs.flatMap (·.high)) l.flatten := by
        intro gs
        induction gs with
        | nil =>
          intro l hl _
          have : l = [] := List.length_eq_zero_iff.1 (by simpa using hl)
          subst this
          exact ⟨.nil, .nil⟩
        | cons g gs ih =>
          intro l hl hw
          cases l with
          | nil => simp at hl
          | cons w l =>
            obtain ⟨a1, a2⟩ := hw 0 g w rfl rfl
            obtain ⟨b1, b2⟩ := ih l (by simpa using hl) (fun j g w hg hj => hw (j + 1) g w (by simpa using hg) (by simpa using hj))
            simp only [List.flatMap_cons, List.flatten_cons]
            exact ⟨List.rel_append a1 b1, List.rel_append a2 b2⟩
      exact key gs l h1 hw

end

/-- C43 (the generators of the package): sub-episoded, constant and zero generators are zero outside their referenced
states. -/
theorem c43_honest [Zero K] :
    (∀ c : SubCfg G K, Honest c.mask.length (subGen c)) ∧
    (∀ (name : String) (m : List Bool) (v : K), Honest m.length (constGen name m v)) ∧
    (∀ n : ℕ, Honest n (zeroGen (K := K) n)) := by
  have place_zero : ∀ (m : List Bool) (v : K) (i : ℕ), m[i]? = some false → (place m v)[i]? = some 0 := by
    intro m v i h; simp [place, h]
  have base : ∀ {τ : Type} (f g : τ → Call τ (List K)) (st : τ) v o, (baseReset f g st).2 = .ok (v, o) →
      (f st).2 = .ok v := by
    intro τ f g st v o h
    simp only [baseReset, Call.bind] at h
    cases hf : (f st).2 with
    | error e => simp [hf] at h
    | ok a =>
      simp only [hf] at h
      split at h
      · simp only [Except.ok.injEq, Prod.mk.injEq] at h; rw [h.1]
      · simp at h
  refine ⟨?_, ?_, ?_⟩
  · intro c
    have hsub : ∀ (st : SubSt G K) init v o, (subResetWith c st init).2 = .ok (v, o) → ∃ x, v = place c.mask x := by
      intro st init v o h
      simp only [subResetWith] at h
      split at h
      · have := base _ _ _ _ _ h
        simp only [subRef, Except.ok.injEq] at this
        exact ⟨_, this.symm⟩
      · split at h
        · simp at h
        · have := base _ _ _ _ _ h
          simp only [subRef, Except.ok.injEq] at this
          exact ⟨_, this.symm⟩
    refine ⟨rfl, ?_, ?_⟩
    · intro st s v h
      simp only [subGen, subRef, Except.ok.injEq] at h
      subst h
      exact ⟨by simp [place], fun i _ hf => place_zero _ _ i hf⟩
    · intro st s init v o h
      have : ∃ x, v = place c.mask x := by
        simp only [subGen, subReset] at h
        split at h
        · exact hsub _ _ _ _ h
        · exact hsub _ _ _ _ h
      obtain ⟨x, rfl⟩ := this
      exact ⟨by simp [place], fun i _ hf => place_zero _ _ i hf⟩
  · intro name m v
    refine ⟨rfl, ?_, ?_⟩
    · intro st s w h
      simp only [constGen, Except.ok.injEq] at h
      subst h
      exact ⟨by simp [place], fun i _ hf => place_zero _ _ i hf⟩
    · intro st s init w o h
      have := base _ _ _ _ _ h
      simp only [Except.ok.injEq] at this
      subst this
      exact ⟨by simp [place], fun i _ hf => place_zero _ _ i hf⟩
  · intro n
    refine ⟨by simp [zeroGen], ?_, ?_⟩
    · intro st s w h
      simp only [zeroGen, Except.ok.injEq] at h
      subst h
      exact ⟨by simp, fun i hi _ => by simp [hi]⟩
    · intro st s init w o h
      have := base _ _ _ _ _ h
      simp only [Except.ok.injEq] at this
      subst this
      exact ⟨by simp, fun i hi _ => by simp [hi]⟩

/-! A case: constant references 1/2 and 1/4 for the first and the third of three states. -/

/-- the two generators -/
def demoConsts : List (RefGen Unit ℚ) :=
  [constGen "omega" [true, false, false] (1 / 2), constGen "i" [false, false, true] (1 / 4)]

example : ∀ g ∈ demoConsts, Honest 3 g := by
  intro g hg
  simp only [demoConsts, List.mem_cons, List.not_mem_nil, or_false] at hg
  rcases hg with rfl | rfl
  · exact (c43_honest (G := Unit)).2.1 "omega" [true, false, false] (1 / 2)
  · exact (c43_honest (G := Unit)).2.1 "i" [false, false, true] (1 / 4)

example : ∃ M, multiGen 3 demoConsts = .ok M ∧ (M.getRef [(), ()] [0, 0, 0]).2 = .ok [1 / 2, 0, 1 / 4] ∧
    (M.getObs [(), ()] [0, 0, 0]).2 = .ok [1 / 2, 1 / 4] :=
  ⟨_, rfl, by decide +kernel, by decide +kernel⟩

/-! ## C76: names -/

/-- C76: if every sub-generator names its observations in a list with one name per entry, so does the combination, in the
order of the observation. -/
theorem c76_names_partial [AddCommMonoid K] {n : ℕ} {gs : List (RefGen σ K)} {M : RefGen (List σ) K}
    (hM : multiGen n gs = .ok M)
    (hn : ∀ g ∈ gs, ∃ l, g.names = .list l ∧ l.length = g.low.length) :
    ∃ ls : List (List String), gs.map (·.names) = ls.map .list ∧ M.names = .list ls.flatten ∧
      ls.flatten.length = M.low.length := by
  obtain ⟨-, -, rfl⟩ := multiGen_ok hM
  simp only
  clear hM
  induction gs with
  | nil => exact ⟨[], rfl, rfl, rfl⟩
  | cons g gs ih =>
    obtain ⟨l, h1, h2⟩ := hn g (by simp)
    obtain ⟨ls, e1, e2, e3⟩ := ih (fun g hg => hn g (by simp [hg]))
    refine ⟨l :: ls, by simp [h1, e1], ?_, ?_⟩
    · simp only [Names.list.injEq] at e2 ⊢
      rw [List.flatMap_cons, e2, h1]; rfl
    · simp [h2, e3]

/-- C76 does not hold with a `ConstReferenceGenerator`, whose `reference_names` is a string: the combination then lists its
characters. -/
theorem c76_const_violated : ∃ M, multiGen 3 demoConsts = .ok M ∧ M.names = .list ["o", "m", "e", "g", "a", "i"] ∧
    M.low.length = 2 :=
  ⟨_, rfl, by decide +kernel, by decide +kernel⟩

/-! ## C44: switching -/

/-- number of observations in a history -/
def obsCount : List (Op K) → ℕ
  | [] => 0
  | .obs _ :: ops => obsCount ops + 1
  | _ :: ops => obsCount ops

/-- no reset in the history -/
def Quiet (ops : List (Op K)) : Prop := ∀ op ∈ ops, ∀ s i, op ≠ .reset s i

section
variable [Min K] [Max K]

theorem switchedGen_ok {c : SwCfg G σ K} {M : RefGen (SwSt G σ K) K} (h : switchedGen c = .ok M) :
    ∃ g gs, c.gens = g :: gs ∧ (∀ h ∈ c.gens, h.names = g.names ∧ h.referenced = g.referenced ∧
      h.low.length = g.low.length ∧ h.high.length = g.high.length) ∧
      M = {
        names := g.names
        referenced := g.referenced
        low := fold1 min (c.gens.map (·.low))
        high := fold1 max (c.gens.map (·.high))
        reset := swReset c
        getRef := swRef c
        getObs := swObs c } := by
  unfold switchedGen at h
  split at h
  · simp at h
  · rename_i g gs hgs
    split_ifs at h with h1 h2 h3
    simp only [Except.ok.injEq] at h
    refine ⟨g, gs, hgs, ?_, h.symm⟩
    rw [List.all_eq_true] at h1 h2 h3
    intro x hx
    exact ⟨by simpa using h1 x hx, by simpa using h3 x hx, (by simpa using h2 x hx : _ ∧ _).1,
      (by simpa using h2 x hx : _ ∧ _).2⟩

/-- what a stretch of calls without switch does -/
structure Stays (c : SwCfg G σ K) (M : RefGen (SwSt G σ K) K) (g : RefGen σ K) (st : SwSt G σ K) (t : σ)
    (ops : List (Op K)) : Prop where
  answers : (Refs.run M st ops).2 = (Refs.run g t ops).2
  subs : (Refs.run M st ops).1.subs = st.subs.set st.cur (Refs.run g t ops).1
  cur : (Refs.run M st ops).1.cur = st.cur
  gen : (Refs.run M st ops).1.gen = st.gen
  len : (Refs.run M st ops).1.len = st.len
  k : (∀ o ∈ (Refs.run M st ops).2, o.isOk = true) → (Refs.run M st ops).1.k = st.k + obsCount ops

theorem sw_run {c : SwCfg G σ K} {M : RefGen (SwSt G σ K) K} (hM : switchedGen c = .ok M) (g : RefGen σ K) :
    ∀ (ops : List (Op K)) (st : SwSt G σ K) (t : σ), Quiet ops → c.gens[st.cur]? = some g → st.subs[st.cur]? = some t →
      (obsCount ops : ℤ) ≤ st.len - st.k → Stays c M g st t ops := by
  obtain ⟨g0, gs, hgs, -, rfl⟩ := switchedGen_ok hM
  intro ops
  induction ops with
  | nil =>
    intro st t _ hg ht _
    refine ⟨rfl, ?_, rfl, rfl, rfl, fun _ => rfl⟩
    simp only [Refs.run]
    obtain ⟨hlt, rfl⟩ := List.getElem?_eq_some_iff.1 ht
    exact (List.set_getElem_self hlt).symm
  | cons op ops ih =>
    intro st t hq hg ht hn
    have hq' : Quiet ops := fun o ho => hq o (by simp [ho])
    have hlt : st.cur < st.subs.length := (List.getElem?_eq_some_iff.1 ht).1
    cases op with
    | reset s i => exact absurd rfl (hq (.reset s i) (by simp) s i)
    | ref s =>
      simp only [obsCount] at hn
      cases hr : (g.getRef t s).2 with
      | error e =>
        have h2 := ih { st with subs := st.subs.set st.cur (g.getRef t s).1 } (g.getRef t s).1 hq' hg (by simp [hlt]) hn
        refine ⟨?_, ?_, ?_, ?_, ?_, ?_⟩ <;>
          simp only [Refs.run, Refs.apply, swRef, onCurrent, hg, ht, hr, Call.bind, obsCount]
        · rw [h2.answers]
        · rw [h2.subs]; simp
        · exact h2.cur
        · exact h2.gen
        · exact h2.len
        · intro h; exact h2.k (fun o ho => h o (by simp [ho]))
      | ok r =>
        have h2 := ih { st with subs := st.subs.set st.cur (g.getRef t s).1, reference := some r } (g.getRef t s).1 hq' hg
          (by simp [hlt]) hn
        refine ⟨?_, ?_, ?_, ?_, ?_, ?_⟩ <;>
          simp only [Refs.run, Refs.apply, swRef, onCurrent, hg, ht, hr, Call.bind, obsCount]
        · rw [h2.answers]
        · rw [h2.subs]; simp
        · exact h2.cur
        · exact h2.gen
        · exact h2.len
        · intro h; exact h2.k (fun o ho => h o (by simp [ho]))
    | obs s =>
      simp only [obsCount, Nat.cast_add, Nat.cast_one] at hn
      have hk : ¬ st.len ≤ (st.k : ℤ) := by omega
      cases hr : (g.getObs t s).2 with
      | error e =>
        have h2 := ih { st with subs := st.subs.set st.cur (g.getObs t s).1 } (g.getObs t s).1 hq' hg
          (by simp [hlt]) (by simp only; omega)
        refine ⟨?_, ?_, ?_, ?_, ?_, ?_⟩ <;>
          simp only [Refs.run, Refs.apply, swObs, hk, onCurrent, hg, ht, hr, Call.bind, obsCount, if_false]
        · rw [h2.answers]
        · rw [h2.subs]; simp
        · exact h2.cur
        · exact h2.gen
        · exact h2.len
        · intro h
          have := h (.obs (.error e)) (by simp)
          simp [Out.isOk] at this
      | ok o =>
        have h2 := ih { st with subs := st.subs.set st.cur (g.getObs t s).1, k := st.k + 1 } (g.getObs t s).1 hq' hg
          (by simp [hlt]) (by simp only [Nat.cast_add, Nat.cast_one]; omega)
        refine ⟨?_, ?_, ?_, ?_, ?_, ?_⟩ <;>
          simp only [Refs.run, Refs.apply, swObs, hk, onCurrent, hg, ht, hr, Call.bind, obsCount, if_false]
        · rw [h2.answers]
        · rw [h2.subs]; simp
        · exact h2.cur
        · exact h2.gen
        · exact h2.len
        · intro h
          have := h2.k (fun o ho => h o (by simp [ho]))
          simp only at this
          rw [this]; omega

/-- Well-formed: one state per sub-generator, and `choice` picks one of them. -/
structure SwOk (c : SwCfg G σ K) (st : SwSt G σ K) : Prop where
  subs : st.subs.length = c.gens.length
  choice : ∀ g, (c.choice g).2 < c.gens.length

/-- C44 (one generator per super-episode, after a reset): if the reset draws the length `L` and the generator `j`, it answers
with the reset of that generator, and any following calls with up to `L` observations are answered by that generator alone,
exactly as if it were used directly; no other sub-generator is touched. -/
theorem c44_episode {c : SwCfg G σ K} {M : RefGen (SwSt G σ K) K} (hM : switchedGen c = .ok M) (st : SwSt G σ K)
    (hst : SwOk c st) (s : List K) (init : Option (List K)) (ops : List (Op K)) (hq : Quiet ops)
    (hn : (obsCount ops : ℤ) ≤ (c.integers (c.spawn st.spawned)).2) :
    ∃ (j : ℕ) (g : RefGen σ K) (t : σ), j = (c.choice (c.integers (c.spawn st.spawned)).1).2 ∧ c.gens[j]? = some g ∧
      st.subs[j]? = some t ∧
      (Refs.run M st (.reset s init :: ops)).2 = (Refs.run g t (.reset s init :: ops)).2 ∧
      (Refs.run M st (.reset s init :: ops)).1.subs = st.subs.set j (Refs.run g t (.reset s init :: ops)).1 := by
  have hj := hst.choice (c.integers (c.spawn st.spawned)).1
  obtain ⟨g, hg⟩ : ∃ g, c.gens[(c.choice (c.integers (c.spawn st.spawned)).1).2]? = some g :=
    ⟨_, List.getElem?_eq_getElem hj⟩
  obtain ⟨t, ht⟩ : ∃ t, st.subs[(c.choice (c.integers (c.spawn st.spawned)).1).2]? = some t :=
    ⟨_, List.getElem?_eq_getElem (by rw [hst.subs]; exact hj)⟩
  refine ⟨_, g, t, rfl, hg, ht, ?_⟩
  have hM' := hM
  obtain ⟨g0, gs, hgs, -, rfl⟩ := switchedGen_ok hM
  have h2 := sw_run hM' g ops
    { st with
      gen := (c.choice (c.integers (c.spawn st.spawned)).1).1, spawned := st.spawned + 1,
      len := (c.integers (c.spawn st.spawned)).2, k := 0, cur := (c.choice (c.integers (c.spawn st.spawned)).1).2,
      subs := st.subs.set (c.choice (c.integers (c.spawn st.spawned)).1).2 (g.reset t s init).1 }
    (g.reset t s init).1 hq hg (by simp [hst.subs, hj]) (by simpa using hn)
  constructor
  · simp only [Refs.run, Refs.apply, swReset, onCurrent, swNew, hg, ht]
    congr 1
    exact h2.answers
  · simp only [Refs.run, Refs.apply, swReset, onCurrent, swNew, hg, ht]
    refine h2.subs.trans ?_
    simp

/-- C44 (change of the generator): an observation asked when the drawn length is used up draws a new length and a new
generator, and resets that generator with the last answer of `get_reference`; otherwise the current generator answers. -/
theorem c44_switch {c : SwCfg G σ K} {M : RefGen (SwSt G σ K) K} (hM : switchedGen c = .ok M) (st : SwSt G σ K)
    (hst : SwOk c st) (hk : st.len ≤ st.k) (s : List K) :
    ∃ (j : ℕ) (g : RefGen σ K) (t : σ), j = (c.choice (c.integers st.gen).1).2 ∧ c.gens[j]? = some g ∧
      st.subs[j]? = some t ∧
      (M.getObs st s).2 = (g.reset t s st.reference).2.map Prod.snd ∧
      (M.getObs st s).1.subs = st.subs.set j (g.reset t s st.reference).1 ∧
      (M.getObs st s).1.cur = j ∧ (M.getObs st s).1.len = (c.integers st.gen).2 ∧
      ((∃ a, (g.reset t s st.reference).2 = .ok a) → (M.getObs st s).1.k = 1) := by
  have hj := hst.choice (c.integers st.gen).1
  obtain ⟨g, hg⟩ : ∃ g, c.gens[(c.choice (c.integers st.gen).1).2]? = some g := ⟨_, List.getElem?_eq_getElem hj⟩
  obtain ⟨t, ht⟩ : ∃ t, st.subs[(c.choice (c.integers st.gen).1).2]? = some t :=
    ⟨_, List.getElem?_eq_getElem (by rw [hst.subs]; exact hj)⟩
  refine ⟨_, g, t, rfl, hg, ht, ?_⟩
  obtain ⟨g0, gs, hgs, -, rfl⟩ := switchedGen_ok hM
  simp only [swObs, if_pos hk, swNew, onCurrent, hg, ht, Call.bind]
  cases hr : (g.reset t s st.reference).2 with
  | error e => simp [Except.map]
  | ok a => simp [Except.map]

/-- C44 (hand-over): in the order the environment uses (`get_reference`, then `get_reference_observation`), the new
generator starts from the last reference of the old one. -/
theorem c44_handover {c : SwCfg G σ K} {M : RefGen (SwSt G σ K) K} (hM : switchedGen c = .ok M) (st : SwSt G σ K)
    (hst : SwOk c st) (hk : st.len ≤ st.k) (s s' : List K) (g : RefGen σ K) (t : σ) (hg : c.gens[st.cur]? = some g)
    (ht : st.subs[st.cur]? = some t) (r : List K) (hr : (g.getRef t s).2 = .ok r) :
    (M.getRef st s).2 = .ok r ∧
    ∃ (j : ℕ) (g' : RefGen σ K) (t' : σ), j = (c.choice (c.integers st.gen).1).2 ∧ c.gens[j]? = some g' ∧
      (st.subs.set st.cur (g.getRef t s).1)[j]? = some t' ∧
      (M.getObs (M.getRef st s).1 s').2 = (g'.reset t' s' (some r)).2.map Prod.snd := by
  have hM' := hM
  obtain ⟨g0, gs, hgs, -, rfl⟩ := switchedGen_ok hM
  have e : swRef c st s = ({ st with subs := st.subs.set st.cur (g.getRef t s).1, reference := some r }, .ok r) := by
    simp [swRef, onCurrent, hg, ht, hr, Call.bind]
  refine ⟨by simp only [e], ?_⟩
  obtain ⟨j, g', t', h1, h2, h3, h4, -⟩ := c44_switch hM'
    { st with subs := st.subs.set st.cur (g.getRef t s).1, reference := some r } ⟨by simp [hst.subs], hst.choice⟩ hk s'
  refine ⟨j, g', t', h1, h2, h3, ?_⟩
  simp only [e]
  exact h4

/-- C44 (length of a super-episode): counting from a state with `k` used and `len` drawn observations, after exactly
`len - k` further observations (and any calls of `get_reference`) that succeed the super-episode is used up: up to there the
same generator answers, and `c44_switch` applies to the next observation. -/
theorem c44_length {c : SwCfg G σ K} {M : RefGen (SwSt G σ K) K} (hM : switchedGen c = .ok M) (st : SwSt G σ K)
    (g : RefGen σ K) (t : σ) (hg : c.gens[st.cur]? = some g) (ht : st.subs[st.cur]? = some t) (ops : List (Op K))
    (hq : Quiet ops) (hn : (obsCount ops : ℤ) = st.len - st.k)
    (hok : ∀ o ∈ (Refs.run M st ops).2, o.isOk = true) :
    (Refs.run M st ops).2 = (Refs.run g t ops).2 ∧ (Refs.run M st ops).1.cur = st.cur ∧
      (Refs.run M st ops).1.len ≤ (Refs.run M st ops).1.k := by
  have h := sw_run hM g ops st t hq hg ht (by omega)
  refine ⟨h.answers, h.cur, ?_⟩
  rw [h.len, h.k hok]
  push_cast
  omega

/-- C44 (bounds): `integers(a, b)` can draw exactly the lengths from `a` to `b - 1`, and for a number `n` exactly `n`. -/
theorem c44_bounds (L : SuperLen) (x : ℤ) :
    (∀ n, L = .num n → (L.bounds.1 ≤ x ∧ x < L.bounds.2 ↔ x = n))
    ∧ ∀ a b, L = .pair a b → (L.bounds.1 ≤ x ∧ x < L.bounds.2 ↔ a ≤ x ∧ x ≤ b - 1) := by
  constructor
  · rintro n rfl
    simp only [SuperLen.bounds]
    omega
  · rintro a b rfl
    simp only [SuperLen.bounds]
    omega

end

/-- C44 (reference space): an observation inside the reference space of any of the sub-generators lies in the reference
space of the switched generator. -/
theorem c44_space [LinearOrder K] {c : SwCfg G σ K} {M : RefGen (SwSt G σ K) K} (hM : switchedGen c = .ok M)
    (g : RefGen σ K) (hg : g ∈ c.gens) (o : List K) (h : Within g.low g.high o) : Within M.low M.high o := by
  obtain ⟨g0, gs, hgs, hall, rfl⟩ := switchedGen_ok hM
  have mono : ∀ (f : K → K → K) (R : K → K → Prop) (_ : ∀ a b, R (f a b) a ∧ R (f a b) b) (_ : ∀ a, R a a)
      (_ : ∀ a b c, R a b → R b c → R a c) (n : ℕ) (l : List (List K)) (a : List K),
      (∀ b ∈ a :: l, b.length = n) → ∀ b ∈ a :: l, List.Forall₂ R (l.foldl (List.zipWith f) a) b := by
    intro f R hf hrefl htrans n l
    have zipL : ∀ a b : List K, a.length = b.length →
        List.Forall₂ R (List.zipWith f a b) a ∧ List.Forall₂ R (List.zipWith f a b) b := by
      intro a
      induction a with
      | nil =>
        intro b hb
        have : b = [] := List.length_eq_zero_iff.1 (by simpa using hb.symm)
        subst this
        exact ⟨.nil, .nil⟩
      | cons x a ih =>
        intro b hb
        cases b with
        | nil => simp at hb
        | cons y b =>
          obtain ⟨h1, h2⟩ := ih b (by simpa using hb)
          exact ⟨.cons (hf x y).1 h1, .cons (hf x y).2 h2⟩
    have trans2 : ∀ a b c : List K, List.Forall₂ R a b → List.Forall₂ R b c → List.Forall₂ R a c := by
      intro a b c h1
      induction h1 generalizing c with
      | nil => intro h2; cases h2; exact .nil
      | cons hx _ ih =>
        intro h2
        cases h2 with
        | cons hy hr => exact .cons (htrans _ _ _ hx hy) (ih _ hr)
    induction l with
    | nil =>
      intro a _ b hb
      simp only [List.mem_singleton] at hb
      subst hb
      simp only [List.foldl_nil]
      exact List.forall₂_same.2 (fun x _ => hrefl x)
    | cons d l ih =>
      intro a hlen b hb
      have ha := hlen a (by simp)
      have hd := hlen d (by simp)
      have hz := zipL a d (by rw [ha, hd])
      have hlen' : ∀ b ∈ List.zipWith f a d :: l, b.length = n := by
        intro b hb
        simp only [List.mem_cons] at hb
        rcases hb with rfl | hb
        · simp [ha, hd]
        · exact hlen b (by simp [hb])
      have hi := ih (List.zipWith f a d) hlen'
      simp only [List.foldl_cons]
      simp only [List.mem_cons] at hb
      rcases hb with rfl | rfl | hb
      · exact trans2 _ _ _ (hi _ (by simp)) hz.1
      · exact trans2 _ _ _ (hi _ (by simp)) hz.2
      · exact hi b (by simp [hb])
  have trans2 : ∀ a b d : List K, List.Forall₂ (· ≤ ·) a b → List.Forall₂ (· ≤ ·) b d → List.Forall₂ (· ≤ ·) a d := by
    intro a b d h1
    induction h1 generalizing d with
    | nil => intro h2; cases h2; exact .nil
    | cons hx _ ih =>
      intro h2
      cases h2 with
      | cons hy hr => exact .cons (le_trans hx hy) (ih _ hr)
  simp only [Within]
  rw [hgs]
  simp only [List.map_cons, fold1]
  have hmem : g.low ∈ g0.low :: gs.map (·.low) ∧ g.high ∈ g0.high :: gs.map (·.high) := by
    rw [hgs] at hg
    simp only [List.mem_cons] at hg ⊢
    rcases hg with rfl | hg
    · exact ⟨Or.inl rfl, Or.inl rfl⟩
    · exact ⟨Or.inr (List.mem_map_of_mem hg), Or.inr (List.mem_map_of_mem hg)⟩
  have hlow : ∀ b ∈ g0.low :: gs.map (·.low), b.length = g0.low.length := by
    intro b hb
    have : b ∈ (c.gens.map (·.low)) := by rw [hgs]; simpa using hb
    obtain ⟨x, hx, rfl⟩ := List.mem_map.1 this
    exact (hall x hx).2.2.1
  have hhigh : ∀ b ∈ g0.high :: gs.map (·.high), b.length = g0.high.length := by
    intro b hb
    have : b ∈ (c.gens.map (·.high)) := by rw [hgs]; simpa using hb
    obtain ⟨x, hx, rfl⟩ := List.mem_map.1 this
    exact (hall x hx).2.2.2
  have h1 := mono min (· ≤ ·) (fun a b => ⟨min_le_left a b, min_le_right a b⟩) le_refl (fun _ _ _ => le_trans) _ _ _ hlow
    _ hmem.1
  have h2 := mono max (fun a b => b ≤ a) (fun a b => ⟨le_max_left a b, le_max_right a b⟩) le_refl
    (fun a b d h h' => le_trans h' h) _ _ _ hhigh _ hmem.2
  refine ⟨trans2 _ _ _ h1 h.1, trans2 _ _ _ h.2 ?_⟩
  exact List.Forall₂.flip h2

/-! A case: two counting generators, switched after every two observations. -/

/-- start value -/
def startOf (off : ℤ) : Option (List ℤ) → ℤ
  | some (x :: _) => x
  | _ => off

/-- a generator whose observations count the calls; they start at the given reference or at an offset -/
def demoCounter (off : ℤ) : RefGen ℤ ℤ where
  names := .list ["omega"]
  referenced := [true]
  low := [off]
  high := [off + 100]
  reset _ _ init := (startOf off init, .ok ([startOf off init], [startOf off init]))
  getRef t _ := (t, .ok [t])
  getObs t _ := (t + 1, .ok [t + 1])

/-- length 2 for every super-episode; the generators take turns -/
def demoSwitch : SwCfg ℕ ℤ ℤ where
  gens := [demoCounter 0, demoCounter 50]
  integers g := (g + 1, 2)
  choice g := (g, (g + 1) % 2)
  spawn _ := 0

/-- the reset shows 0, the first generator continues with 1, 2, then the second one takes over at 2 and continues with 3, then
the first one takes over at 3 -/
example : ∃ M, switchedGen demoSwitch = .ok M ∧
    (Refs.run M ⟨[0, 50], none, 0, 0, 0, 0, 1⟩ [.reset [] none, .ref [], .obs [], .ref [], .obs [], .ref [], .obs [],
      .ref [], .obs [], .ref [], .obs []]).1.subs = [3, 3] :=
  ⟨_, rfl, by decide +kernel⟩

/-- C44 (documented length): with the same number `n` of steps for every super-episode, the generator selected by a reset is
used for `n + 1` references (the reset's and `n` more), while one selected by a switch is used for `n`: after its first
reference only `n - 1` are left until the next switch. -/
theorem c44_first_violated [Min K] [Max K] {c : SwCfg G σ K} {M : RefGen (SwSt G σ K) K} (hM : switchedGen c = .ok M)
    (n : ℕ) (hn : ∀ g, (c.integers g).2 = n) (st : SwSt G σ K) (hst : SwOk c st) (s : List K) (init : Option (List K))
    (ops : List (Op K)) (hq : Quiet ops) (ho : obsCount ops = n) :
    (∃ (j : ℕ) (g : RefGen σ K) (t : σ), c.gens[j]? = some g ∧ st.subs[j]? = some t ∧
      (Refs.run M st (.reset s init :: ops)).2 = (Refs.run g t (.reset s init :: ops)).2) ∧
    ∀ st' : SwSt G σ K, SwOk c st' → st'.len ≤ st'.k → (∃ o, (M.getObs st' s).2 = .ok o) →
      (M.getObs st' s).1.len - (M.getObs st' s).1.k = n - 1 := by
  constructor
  · obtain ⟨j, g, t, -, h1, h2, h3, -⟩ := c44_episode hM st hst s init ops hq (by rw [hn, ho])
    exact ⟨j, g, t, h1, h2, h3⟩
  · intro st' hst' hk ⟨o, hobs⟩
    obtain ⟨j, g, t, -, -, -, h4, -, -, h5, h6⟩ := c44_switch hM st' hst' hk s
    rw [h5, hn, h6]
    · push_cast; ring
    · rw [hobs] at h4
      cases hr : (g.reset t s st'.reference).2 with
      | error e => simp [hr, Except.map] at h4
      | ok a => exact ⟨a, rfl⟩

example : ∀ g, (demoSwitch.integers g).2 = ((2 : ℕ) : ℤ) := fun _ => rfl

example : SwOk demoSwitch ⟨[0, 50], none, 0, 0, 0, 0, 1⟩ :=
  ⟨rfl, fun g => Nat.mod_lt _ (by decide)⟩

/-- C76 (switching): a `ConstReferenceGenerator` cannot be switched with a sub-episoded generator for the same state: the
constructor compares a string with a list and refuses. -/
theorem c76_switch_violated [Min K] [Max K] [Zero K] (c : SwCfg G σ K) (g h : RefGen σ K) (name : String) (hg : g ∈ c.gens)
    (hh : h ∈ c.gens) (h1 : g.names = (constGen name [true] (0 : K)).names) (h2 : h.names = .list [name]) :
    switchedGen c = .error .assertion := by
  unfold switchedGen
  split
  · rfl
  · rename_i g0 gs hgs
    have : ¬ (c.gens.all (fun h => decide (h.names = g0.names))) = true := by
      rw [List.all_eq_true]
      intro hall
      have e1 := hall g hg
      have e2 := hall h hh
      simp only [decide_eq_true_eq] at e1 e2
      rw [h1] at e1
      rw [h2, ← e1] at e2
      simp [constGen] at e2
    rw [if_pos this]

/-! ## C73: the waveforms are not cut -/

theorem clip_inside {x lo hi : ℝ} (h : lo ≤ x ∧ x ≤ hi) : clip x lo hi = x := by
  simp only [clip, max_eq_left h.1, min_eq_left h.2]

theorem clip_mem {x lo hi : ℝ} (h : lo ≤ hi) : lo ≤ clip x lo hi ∧ clip x lo hi ≤ hi :=
  ⟨le_min (le_max_right _ _) h, min_le_right _ _⟩

theorem range_clip {R : Rng G} (hR : RngOk R) (r : Range) (lo hi : ℝ) (h : lo ≤ hi) (g : G) (x : ℝ)
    (hx : (currentValue R (clipRange lo hi r) g).2 = .ok x) : lo ≤ x ∧ x ≤ hi := by
  have hb := currentValue_bounds hR _ g x hx
  cases r with
  | num y => simp [clipRange, currentValue] at hx
  | npnum y => simp [clipRange, currentValue] at hx
  | pair a b =>
    simp only [clipRange, Range.least, Range.greatest] at hb
    exact ⟨le_trans (le_min (clip_mem h).1 (clip_mem h).1) hb.1, le_trans hb.2 (max_le (clip_mem h).2 (clip_mem h).2)⟩

theorem waveParams_mem {R : Rng G} (hR : RngOk R) (w : Wave) (r : Option Range) (m : ℝ × ℝ) (hm : m.1 ≤ m.2)
    (hw : w.amplitude = amplitudeRange r m) (lo hi : ℝ) (hlo : hi - lo = m.2 - m.1) (g : G) (amp freq off : ℝ)
    (h : (waveParams R w lo hi g).2 = .ok (amp, freq, off)) :
    0 ≤ amp ∧ amp ≤ (m.2 - m.1) / 2 ∧ lo + amp ≤ off ∧ off ≤ hi - amp ∧ w.frequency.least ≤ freq ∧
      freq ≤ w.frequency.greatest := by
  simp only [waveParams] at h
  cases ha : (currentValue R w.amplitude g).2 with
  | error e => simp [ha] at h
  | ok a =>
    simp only [ha] at h
    cases hf : (currentValue R w.frequency (currentValue R w.amplitude g).1).2 with
    | error e => simp [hf] at h
    | ok f =>
      simp only [hf] at h
      split at h
      · simp at h
      · rename_i o ho
        simp only [Except.ok.injEq, Prod.mk.injEq] at h
        obtain ⟨rfl, rfl, rfl⟩ := h
        have h0 : (0 : ℝ) ≤ (m.2 - m.1) / 2 := by linarith
        have hamp : 0 ≤ a ∧ a ≤ (m.2 - m.1) / 2 := by
          rw [hw] at ha
          cases r with
          | none =>
            have := currentValue_bounds hR _ g a ha
            simp only [amplitudeRange, Range.least, Range.greatest, min_eq_left h0, max_eq_right h0] at this
            exact this
          | some r => exact range_clip hR r _ _ h0 g a ha
        have := range_clip hR _ _ _ (by linarith) _ _ ho
        have hfr := currentValue_bounds hR _ _ _ hf
        exact ⟨hamp.1, hamp.2, this.1, this.2, hfr.1, hfr.2⟩

theorem pyMod_bounds (x : ℝ) {y : ℝ} (hy : 0 < y) : 0 ≤ pyMod x y ∧ pyMod x y < y := by
  have h1 := Int.floor_le (x / y)
  have h2 := Int.lt_floor_add_one (x / y)
  rw [le_div_iff₀ hy] at h1
  rw [div_lt_iff₀ hy] at h2
  simp only [pyMod]
  constructor <;> nlinarith

theorem sawtooth_bounds (t w : ℝ) (h0 : 0 ≤ w) (h1 : w ≤ 1) : -1 ≤ sawtooth t w ∧ sawtooth t w ≤ 1 := by
  have hpi := Real.pi_pos
  obtain ⟨m0, m1⟩ := pyMod_bounds t (y := 2 * Real.pi) (by linarith)
  simp only [sawtooth]
  split
  · rename_i h
    have hw : 0 < w := by
      rcases h0.lt_or_eq with h' | h'
      · exact h'
      · rw [← h'] at h; linarith
    have hp : 0 < Real.pi * w := by positivity
    constructor
    · have : 0 ≤ pyMod t (2 * Real.pi) / (Real.pi * w) := by positivity
      linarith
    · have : pyMod t (2 * Real.pi) / (Real.pi * w) ≤ 2 := by rw [div_le_iff₀ hp]; linarith
      linarith
  · rename_i h
    have hw : w < 1 := by
      rcases h1.lt_or_eq with h' | h'
      · exact h'
      · rw [h'] at h; linarith
    have hp : 0 < Real.pi * (1 - w) := mul_pos hpi (by linarith)
    constructor
    · rw [le_div_iff₀ hp]; nlinarith
    · rw [div_le_iff₀ hp]; nlinarith

theorem sign_bounds (x : ℝ) : -1 ≤ ((SignType.sign x : SignType) : ℝ) ∧ ((SignType.sign x : SignType) : ℝ) ≤ 1 := by
  rcases lt_trichotomy x 0 with h | h | h
  · simp [sign_neg h]
  · simp [h]
  · simp [sign_pos h]

theorem sawtooth_zigzag (x w : ℝ) : sawtooth (2 * Real.pi * x) w = zigzag w x := by
  have hpi := Real.pi_pos
  have hm : pyMod (2 * Real.pi * x) (2 * Real.pi) = 2 * Real.pi * Int.fract x := by
    rw [pyMod, mul_div_cancel_left₀ _ (by positivity), Int.fract]; ring
  simp only [sawtooth, zigzag, hm]
  have hiff : 2 * Real.pi * Int.fract x < 2 * Real.pi * w ↔ Int.fract x < w := by
    constructor
    · intro h; nlinarith
    · intro h; nlinarith
  by_cases h : Int.fract x < w
  · rw [if_pos (hiff.2 h), if_pos h]
    have : 0 < w := lt_of_le_of_lt (Int.fract_nonneg x) h
    field_simp
  · rw [if_neg (fun h' => h (hiff.1 h')), if_neg h]
    have : w < 1 := lt_of_le_of_lt (not_lt.1 h) (Int.fract_lt_one x)
    have h2 : 1 - w ≠ 0 := by linarith
    field_simp
    ring

theorem map_times (tau : ℝ) (n : ℕ) (f : ℝ → ℝ) :
    (times tau n).map f = (List.range n).map (fun i : ℕ => f ((i : ℝ) * tau)) := by
  simp [times, Function.comp_def]

/-- C73 (symmetric margins): whatever ranges the user gave and whatever is drawn, every sub-episode of the sine generator
consists of the samples at the control instants of an undistorted sine with a frequency of the given range, an amplitude up to
the margin and any phase; those of the sawtooth and triangle generators are the samples of an undistorted triangle wave
(rising all the time for the sawtooth). -/
theorem c73_symmetric_partial {R : Rng G} (hR : RngOk R) (w : Wave) (r : Option Range) (u : ℝ) (hu : 0 ≤ u)
    (hw : w.amplitude = amplitudeRange r (-u, u)) (v : ℝ) (n : ℕ) (g : G) (l : List ℝ)
    (k : Kind) (hk : k = .sinus w ∨ k = .sawtooth w ∨ k = .triangle w) (h : (k.make R (-u, u) v n g).2 = .ok l) :
    ∃ amp off freq phase, 0 ≤ amp ∧ amp ≤ u ∧ w.frequency.least ≤ freq ∧ freq ≤ w.frequency.greatest ∧
      0 ≤ phase ∧ phase < 1 ∧
      (k = .sinus w → l = (List.range n).map
        (fun i : ℕ => off + amp * Real.sin (2 * Real.pi * (freq * (i * w.tau) + phase)))) ∧
      (k ≠ .sinus w → ∃ width, 0 ≤ width ∧ width ≤ 1 ∧ (k = .sawtooth w → width = 1) ∧
        l = (List.range n).map (fun i : ℕ => off + amp * zigzag width (freq * (i * w.tau) + phase))) := by
  have par := waveParams_mem hR w r (-u, u) (by simp only; linarith) hw (-u) u rfl g
  have zz : ∀ width x, 0 ≤ width → width ≤ 1 → -1 ≤ zigzag width x ∧ zigzag width x ≤ 1 := by
    intro width x h0 h1
    rw [← sawtooth_zigzag x width]
    exact sawtooth_bounds _ _ h0 h1
  rcases hk with rfl | rfl | rfl
  · simp only [Kind.make, sinMake] at h
    split at h
    · simp at h
    · rename_i amp freq off hp
      split at h
      · simp at h
      · simp only [Except.ok.injEq] at h
        subst h
        obtain ⟨p1, p2, p3, p4, p5, p6⟩ := par amp freq off hp
        have hun := hR.uniform (waveParams R w (-u) u g).1
        refine ⟨amp, off, freq, _, p1, by linarith, p5, p6, hun.1, hun.2, fun _ => ?_, fun h => absurd rfl h⟩
        simp only [shape, sinWave, map_times, List.map_map, Function.comp_def, Int.toNat_natCast]
        apply List.map_congr_left
        intro i _
        have hb := Real.neg_one_le_sin (2 * Real.pi * freq * (↑i * w.tau) + (R.uniform (waveParams R w (-u) u g).1).2 * 2 * Real.pi)
        have hb' := Real.sin_le_one (2 * Real.pi * freq * (↑i * w.tau) + (R.uniform (waveParams R w (-u) u g).1).2 * 2 * Real.pi)
        rw [clip_inside ⟨by nlinarith, by nlinarith⟩]
        rw [show 2 * Real.pi * freq * (↑i * w.tau) + (R.uniform (waveParams R w (-u) u g).1).2 * 2 * Real.pi =
          2 * Real.pi * (freq * (↑i * w.tau) + (R.uniform (waveParams R w (-u) u g).1).2) by ring]
        ring
  · simp only [Kind.make, sawMake] at h
    split at h
    · simp at h
    · rename_i amp freq off hp
      split at h
      · simp at h
      · simp only [Except.ok.injEq] at h
        subst h
        obtain ⟨p1, p2, p3, p4, p5, p6⟩ := par amp freq off hp
        have hun := hR.uniform (waveParams R w (-u) u g).1
        refine ⟨amp, off, freq, _, p1, by linarith, p5, p6, hun.1, hun.2, by simp, fun _ => ⟨1, zero_le_one, le_rfl,
          fun _ => rfl, ?_⟩⟩
        simp only [shape, sawWave, map_times, List.map_map, Function.comp_def, Int.toNat_natCast]
        apply List.map_congr_left
        intro i _
        rw [show 2 * Real.pi * freq * (↑i * w.tau) + (R.uniform (waveParams R w (-u) u g).1).2 * 2 * Real.pi =
          2 * Real.pi * (freq * (↑i * w.tau) + (R.uniform (waveParams R w (-u) u g).1).2) by ring]
        rw [sawtooth_zigzag]
        obtain ⟨hb, hb'⟩ := zz 1 (freq * (↑i * w.tau) + (R.uniform (waveParams R w (-u) u g).1).2) zero_le_one le_rfl
        rw [clip_inside ⟨by nlinarith, by nlinarith⟩]
        ring
  · simp only [Kind.make, triMake] at h
    split at h
    · simp at h
    · rename_i amp freq off hp
      split at h
      · simp at h
      · simp only [Except.ok.injEq] at h
        subst h
        obtain ⟨p1, p2, p3, p4, p5, p6⟩ := par amp freq off hp
        have hun := hR.uniform (waveParams R w (-u) u g).1
        have hwd := hR.uniform (R.uniform (waveParams R w (-u) u g).1).1
        refine ⟨amp, off, freq, _, p1, by linarith, p5, p6, hun.1, hun.2, by simp, fun _ => ⟨_, hwd.1, hwd.2.le,
          by simp, ?_⟩⟩
        simp only [shape, sawWave, map_times, List.map_map, Function.comp_def, Int.toNat_natCast]
        apply List.map_congr_left
        intro i _
        rw [show 2 * Real.pi * freq * (↑i * w.tau) + (R.uniform (waveParams R w (-u) u g).1).2 * 2 * Real.pi =
          2 * Real.pi * (freq * (↑i * w.tau) + (R.uniform (waveParams R w (-u) u g).1).2) by ring]
        rw [sawtooth_zigzag]
        obtain ⟨hb, hb'⟩ := zz _ (freq * (↑i * w.tau) + (R.uniform (waveParams R w (-u) u g).1).2) hwd.1 hwd.2.le
        rw [clip_inside ⟨by nlinarith, by nlinarith⟩]
        ring

theorem mul_pyMod (f t : ℝ) (hf : f ≠ 0) : f * pyMod t (1 / f) = Int.fract (f * t) := by
  rw [pyMod, Int.fract, div_div_eq_mul_div, div_one, mul_comm t f]
  field_simp

/-- C73 (step generator): for every margin, symmetric or not, the step generator is never cut: its values are
`off + amp` in the last part of a period, `off - amp` in the first `ratio` of it (and `off` exactly between), sampled at
the control instants, where the sub-episode is rotated by the drawn phase. -/
theorem c73_step {R : Rng G} (hR : RngOk R) (w : Wave) (r : Option Range) (m : ℝ × ℝ) (hm : m.1 ≤ m.2)
    (hw : w.amplitude = amplitudeRange r m) (v : ℝ) (n : ℕ) (g : G) (l : List ℝ)
    (h : ((Kind.step w).make R m v n g).2 = .ok l) :
    ∃ amp off freq ratio phase, 0 ≤ amp ∧ amp ≤ (m.2 - m.1) / 2 ∧ w.frequency.least ≤ freq ∧
      freq ≤ w.frequency.greatest ∧ 0 ≤ ratio ∧ ratio ≤ 1 ∧ 0 ≤ phase ∧ phase < 1 ∧
      l = (List.range n).map (fun i : ℕ => off + amp * (SignType.sign
        (Int.fract (freq * (((((i : ℤ) - pyInt (phase / (freq * w.tau))) % n : ℤ) : ℝ) * w.tau)) - ratio) : ℝ)) := by
  simp only [Kind.make, stepMake] at h
  split at h
  · simp at h
  · rename_i amp freq off hp
    split at h
    · simp at h
    · split at h
      · simp at h
      · rename_i hf0
        simp only [Except.ok.injEq] at h
        subst h
        obtain ⟨p1, p2, p3, p4, p5, p6⟩ := waveParams_mem hR w r m hm hw m.1 m.2 rfl g amp freq off hp
        have ht := hR.triangular (waveParams R w m.1 m.2 g).1
        have hun := hR.uniform (R.triangular (waveParams R w m.1 m.2 g).1).1
        refine ⟨amp, off, freq, _, _, p1, p2, p5, p6, ht.1, ht.2, hun.1, hun.2, ?_⟩
        simp only [shape, stepWave, roll, map_times, List.map_map, List.length_map, List.length_range, Int.toNat_natCast]
        apply List.map_congr_left
        intro i hi
        have hn : (0 : ℤ) < n := by have := List.mem_range.1 hi; omega
        simp only [Function.comp_def]
        rw [show 1 / freq / w.tau * (R.uniform (R.triangular (waveParams R w m.1 m.2 g).1).1).2 =
          (R.uniform (R.triangular (waveParams R w m.1 m.2 g).1).1).2 / (freq * w.tau) by
            rw [div_div, one_div_mul_eq_div]]
        set d := pyInt ((R.uniform (R.triangular (waveParams R w m.1 m.2 g).1).1).2 / (freq * w.tau)) with hd
        have h1 := Int.emod_nonneg ((i : ℤ) - d) hn.ne'
        have h2 := Int.emod_lt_of_pos ((i : ℤ) - d) hn
        have hlt : (((i : ℤ) - d) % n).toNat < n := by omega
        have hc : (((((i : ℤ) - d) % n).toNat : ℕ) : ℝ) = ((((i : ℤ) - d) % n : ℤ) : ℝ) := by
          have : (((((i : ℤ) - d) % n).toNat : ℕ) : ℤ) = ((i : ℤ) - d) % n := Int.toNat_of_nonneg h1
          exact_mod_cast congrArg (fun z : ℤ => (z : ℝ)) this
        rw [List.getD_eq_getElem?_getD, List.getElem?_map, List.getElem?_range hlt]
        simp only [Option.map_some, Option.getD_some, hc, mul_pyMod _ _ hf0]
        obtain ⟨hb, hb'⟩ := sign_bounds (Int.fract (freq * (((((i : ℤ) - d) % n : ℤ) : ℝ) * w.tau)) -
          (R.triangular (waveParams R w m.1 m.2 g).1).2)
        rw [clip_inside ⟨by nlinarith, by nlinarith⟩]
        ring

/-- a sine of amplitude 1/2 around 0 -/
noncomputable def demoWave : Wave := ⟨amplitudeRange (some (.pair (1 / 2) (1 / 2))) (0, 1), .num 1,
  offsetRange (some (.pair 0 0)) (0, 1), 1⟩

/-- C73 does not hold for a state without negative values (margin from 0 to 1): the offset is only kept above
`-margin[1] + amplitude` instead of `margin[0] + amplitude`, and the lower half of the sine is cut to 0. -/
theorem c73_nonnegative_violated :
    (sinMake demoRng demoWave (0, 1) 0 1 1).2 = .ok [0] ∧
      ∃ amp freq off phase, (waveParams demoRng demoWave (-1) 1 1).2 = .ok (amp, freq, off) ∧
        amp * Real.sin (2 * Real.pi * freq * 0 + phase) + off = -1 / 2 ∧ phase = 3 / 4 * 2 * Real.pi := by
  have hs : Real.sin (3 / 4 * 2 * Real.pi) = -1 := by
    rw [show (3 / 4 * 2 * Real.pi : ℝ) = Real.pi / 2 + Real.pi by ring, Real.sin_add_pi, Real.sin_pi_div_two]
  have hs' : Real.sin (3 / 2 * Real.pi) = -1 := by rw [← hs]; congr 1; ring
  have hp : waveParams demoRng demoWave (-1) 1 1 = (3, .ok (1 / 2, 1, 0)) := by
    norm_num [waveParams, demoWave, amplitudeRange, offsetRange, clipRange, clip, currentValue, demoRng]
  refine ⟨?_, 1 / 2, 1, 0, 3 / 4 * 2 * Real.pi, by rw [hp], ?_, rfl⟩
  · simp only [sinMake, hp]
    norm_num [demoRng, sinWave, times, shape, show (1 : ℤ).toNat = 1 from rfl, List.range_succ]
    rw [hs']
    norm_num [clip]
  · norm_num [hs']

/-! ## C74: episodes do not depend on the length of earlier ones -/

/-- C74 (all classes but the Wiener process): the whole history after a reset, including later resets, depends on nothing
but the margin, the initial references, and the number of resets since the seeding: whatever happened in the episodes before,
however many random numbers they used. -/
theorem c74_independent_partial (c : SubCfg G ℝ) (hc : Steady c) (hm : true ∈ c.mask) (st st' : SubSt G ℝ)
    (h1 : st.margin = st'.margin) (h2 : st.spawned = st'.spawned) (s : List ℝ) (init : Option (List ℝ))
    (hi : c.initial = none ∨ init ≠ none) (hl : ∀ x, init = some x → x.length = c.mask.length) (ops : List (Op ℝ)) :
    (Refs.run (subGen c) st (.reset s init :: ops)).2 = (Refs.run (subGen c) st' (.reset s init :: ops)).2 := by
  have base : ∀ v, baseReset (subRef c) (subObs c)
        { st with value := v, gen := c.spawn st.spawned, spawned := st.spawned + 1, len := -1 } =
      baseReset (subRef c) (subObs c)
        { st' with value := v, gen := c.spawn st'.spawned, spawned := st'.spawned + 1, len := -1 } := by
    intro v
    have key : ∀ a : SubSt G ℝ, a.len = -1 → (subObs c a) =
        ((⟨some (episode c a.margin a.gen a.value).2, a.margin, (episode c a.margin a.gen a.value).2.getD 0 0,
            (episode c a.margin a.gen a.value).2.length, 1, (episode c a.margin a.gen a.value).1, a.spawned⟩ : SubSt G ℝ),
          .ok [(episode c a.margin a.gen a.value).2.getD 0 0]) := by
      intro a ha
      obtain ⟨e1, e2⟩ := newSub_episode hc a
      have hk : a.len ≤ (a.k : ℤ) := by omega
      simp only [subObs, if_pos hk, e1, Call.bind, nextValue]
      rw [List.getD_eq_getElem?_getD, List.getElem?_eq_getElem (by omega)]
      simp
    simp only [baseReset, subRef, Call.bind]
    rw [key _ rfl, key _ rfl]
    simp only [h1, h2]
  have hreset : (subGen c).reset st s init = (subGen c).reset st' s init := by
    cases init with
    | some x =>
      have : ∃ v, pick c.mask x = .ok v := by
        have key : ∀ (m : List Bool) (x : List ℝ), true ∈ m → x.length = m.length → ∃ v, pick m x = .ok v := by
          intro m
          induction m with
          | nil => simp
          | cons b m ih =>
            intro x h1 h2
            cases x with
            | nil => simp at h2
            | cons y x =>
              cases b with
              | true => exact ⟨y, rfl⟩
              | false => simpa [pick] using ih x (by simpa using h1) (by simpa using h2)
        exact key _ x hm (hl x rfl)
      obtain ⟨v, hv⟩ := this
      simp only [subGen, subReset, subResetWith, hv]
      exact base v
    | none =>
      have hn : c.initial = none := by
        rcases hi with hi | hi
        · exact hi
        · exact absurd rfl hi
      simp only [subGen, subReset, hn, subResetWith]
      exact base 0
  simp only [Refs.run, Refs.apply, hreset]

/-- C74 does not hold for the Wiener process: it draws the initial reference of an episode with the generator of the episode
before.  After one more sub-episode in the first episode the second episode starts at another reference. -/
theorem c74_wiener_violated :
    (∃ o, (Refs.run (subGen demoCfg) (subInit (-1 / 2, 1 / 2) 3 0) [.reset [] none, .reset [] none]).2[1]? =
      some (.reset (.ok ([0, 1 / 4], o)))) ∧
    (∃ o, (Refs.run (subGen demoCfg) (subInit (-1 / 2, 1 / 2) 3 0)
      [.reset [] none, .obs [], .obs [], .reset [] none]).2[3]? = some (.reset (.ok ([0, -1 / 4], o)))) := by
  have hv : ∀ st : SubSt ℕ ℝ, st.margin = (-1 / 2, 1 / 2) → ∃ st', (subGen demoCfg).reset st [] none =
      (st', .ok (place demoCfg.mask (wienerInitial demoRng (-1 / 2) (1 / 2) st.gen).2, [st'.value])) ∧
      At demoCfg (-1 / 2, 1 / 2) (10 * st.spawned) (wienerInitial demoRng (-1 / 2) (1 / 2) st.gen).2 0 0 st' ∧
      st'.margin = (-1 / 2, 1 / 2) := by
    intro st hm
    obtain ⟨st', h1, h2⟩ := reset_at demoCfg demoCfg_steady (by simp [demoCfg]) st [] none
      (wienerInitial demoRng (-1 / 2) (1 / 2) st.gen).2 (by simp [startValue, demoCfg])
    rw [hm] at h2
    exact ⟨st', h1, h2, h2.margin⟩
  have ep : ∀ g v, (episode demoCfg (-1 / 2, 1 / 2) g v).1 = g + 3 ∧ (g % 2 = 0 → (episode demoCfg (-1 / 2, 1 / 2) g v).2.length = 2) := by
    intro g v
    have hlen : ∃ n : ℤ, demoCfg.drawLen g = (g + 1, .ok n) ∧ 0 ≤ n ∧ (g % 2 = 0 → n = 2) := by
      refine ⟨pyInt ((4 - 2) * (demoRng.uniform g).2 + 2), rfl, ?_, ?_⟩
      · obtain ⟨u0, u1⟩ := demoRng_ok.uniform g
        rw [pyInt, if_pos (by linarith)]
        exact Int.floor_nonneg.2 (by linarith)
      · intro hg
        simp only [demoRng, hg, if_true]
        rw [pyInt, if_pos (by norm_num), Int.floor_eq_iff]
        norm_num
    obtain ⟨n, hn, hn0, hn2⟩ := hlen
    have hmk : ∀ v, demoCfg.make (-1 / 2, 1 / 2) v n (g + 1) =
        (g + 3, .ok (walk (-1 / 2, 1 / 2) v (List.replicate n.toNat 1))) := by
      intro v
      simp only [demoCfg, wienerMake, walkMake, logRange, currentValue, demoRng]
      rw [if_neg (by omega)]
    simp only [episode, hn, hmk]
    refine ⟨trivial, ?_⟩
    intro hg
    rw [hn2 hg, walk_length]
    simp
  obtain ⟨s1, r1, a1, m1⟩ := hv (subInit (-1 / 2, 1 / 2) 3 0) rfl
  have g1 : s1.gen = 13 := by
    rw [a1.gen]
    simp only [episodes, subInit]
    rw [(ep _ _).1]
  constructor
  · obtain ⟨s2, r2, a2, m2⟩ := hv s1 m1
    refine ⟨[s2.value], ?_⟩
    simp only [Refs.run, Refs.apply, r1, r2]
    simp only [List.getElem?_cons_succ, List.getElem?_cons_zero, Option.some.injEq, g1]
    norm_num [place, demoCfg, wienerInitial, demoRng]
  · -- two observations: the first ends the sub-episode of length 2, the second starts a new one
    obtain ⟨s2, j2, o2, a2, -⟩ := next_obs demoCfg_steady a1
    have l1 : (episodes demoCfg (-1 / 2, 1 / 2) (10 * 1) (wienerInitial demoRng (-1 / 2) (1 / 2) 0).2 0).2.length = 2 :=
      (ep _ _).2 (by norm_num)
    have k1 : s1.k = 1 := by have := a1.count; simp [joined] at this; omega
    have e1 : s1.len = 2 := by rw [a1.len]; simp only [subInit]; rw [l1]; rfl
    have o2' : s2.k = 2 ∧ s2.gen = 13 ∧ s2.len = 2 ∧ s2.margin = (-1 / 2, 1 / 2) := by
      have : ¬ s1.len ≤ (s1.k : ℤ) := by rw [e1, k1]; norm_num
      simp only [subObs, if_neg this, nextValue, a1.reference] at o2
      split at o2
      · simp at o2
      · simp only [Prod.mk.injEq] at o2
        obtain ⟨h, -⟩ := o2
        rw [← h]
        exact ⟨by simp [k1], g1, e1, m1⟩
    obtain ⟨s3, o3, a3, -⟩ := first_obs demoCfg_steady s2 (by rw [o2'.1, o2'.2.2.1]; norm_num)
    have g3 : s3.gen = 16 := by
      rw [a3.gen]
      simp only [episodes, o2'.2.2.2, o2'.2.1]
      rw [(ep _ _).1]
    have m3 : s3.margin = (-1 / 2, 1 / 2) := a3.margin.trans o2'.2.2.2
    obtain ⟨s4, r4, a4, -⟩ := hv s3 m3
    refine ⟨[s4.value], ?_⟩
    have e2 : ∀ x, (subGen demoCfg).getObs s1 x = (s2, .ok [s2.value]) := fun _ => o2
    have e3 : ∀ x, (subGen demoCfg).getObs s2 x = (s3, .ok [s3.value]) := fun _ => o3
    simp only [Refs.run, Refs.apply, r1, e2, e3, r4]
    simp only [List.getElem?_cons_succ, List.getElem?_cons_zero, Option.some.injEq, g3]
    norm_num [place, demoCfg, wienerInitial, demoRng]

/-! ## C75: using a generator again -/

/-- C75: `set_modules` stores the computed margin in the attribute it reads.  When it is called again with the same physical
system (the generator object is used for a second environment), the margin stays the same if the state has no negative
values (state space from 0 to 1). -/
theorem c75_reuse_partial (nominal limit : ℝ) (m : Margin ℝ) (p : ℝ × ℝ) (h : setMargin nominal limit 0 1 m = .ok p) :
    setMargin nominal limit 0 1 (Margin.ofPair p) = .ok p := by
  have : p.1 = 0 := by
    cases m <;> simp only [setMargin, mul_zero, Except.ok.injEq, reduceCtorEq] at h <;> rw [← h]
  simp only [Margin.ofPair, setMargin, mul_zero, mul_one]
  rw [show p = (p.1, p.2) from rfl, this]

/-- C75 does not hold for states with both signs: with any margin (given as number or by the nominal value) the second
environment gets the interval from `p` to `p` for the upper margin `p`: all its references are constant. -/
theorem c75_reuse_violated (nominal limit : ℝ) (m : Margin ℝ) (hm : m = .none ∨ ∃ x, m = .num x) :
    ∃ p q, setMargin nominal limit (-1) 1 m = .ok (-p, p) ∧ setMargin nominal limit (-1) 1 (Margin.ofPair (-p, p)) = .ok q ∧
      q = (p, p) := by
  rcases hm with rfl | ⟨x, rfl⟩
  · refine ⟨nominal / limit, _, ?_, rfl, ?_⟩ <;> simp [setMargin]
  · refine ⟨x, _, ?_, rfl, ?_⟩ <;> simp [setMargin]

/-- C75 (documentation): the pair `(-1, 1)` that the constructor describes as the widest margin makes the reference constant. -/
theorem c75_pair_violated (nominal limit : ℝ) : setMargin nominal limit (-1) 1 (.pair (-1) 1) = .ok (1, 1) := by
  norm_num [setMargin]

/-! ## C81: random walks -/

theorem walk_steps (m : ℝ × ℝ) : ∀ (xs : List ℝ) (v : ℝ) (k : ℕ) (x : ℝ), xs[k]? = some x →
    (walk m v xs)[k]? = some (max (min ((v :: walk m v xs).getD k 0 + x) m.2) m.1)
  | [], _, _, _, h => by simp at h
  | y :: ys, v, 0, x, h => by
    simp only [List.getElem?_cons_zero, Option.some.injEq] at h
    subst h
    simp only [walk, List.getElem?_cons_zero, Option.some.injEq, List.getD_cons_zero]
    rcases le_or_gt (v + y) m.2 with h | h
    · rw [if_neg (not_lt.mpr h), min_eq_left h]
      rcases lt_or_ge (v + y) m.1 with h' | h'
      · rw [if_pos h', max_eq_right h'.le]
      · rw [if_neg (not_lt.mpr h'), max_eq_left h']
    · rw [if_pos h, min_eq_right h.le]
      rcases lt_or_ge m.2 m.1 with h' | h'
      · rw [if_pos h', max_eq_right h'.le]
      · rw [if_neg (not_lt.mpr h'), max_eq_left h']
  | y :: ys, v, k + 1, x, h => by
    simp only [List.getElem?_cons_succ] at h
    simp only [walk, List.getElem?_cons_succ, List.getD_cons_succ]
    exact walk_steps m ys _ k x h

/-- C81: a sub-episode of a Wiener or Laplace reference starts from the reference the previous sub-episode ended with, and
each of its values is the previous value plus one increment of the noise, saturated at the margin; the scale of the noise
lies in the given range.  (`noise` is the generator's normal or Laplace distribution.) -/
theorem c81_walk {R : Rng G} (hR : RngOk R) (a b : ℝ) (ha : 0 < a) (hab : a ≤ b)
    (noise : ℝ → ℕ → G → G × List ℝ) (c : SubCfg G ℝ)
    (hc : (noise = R.normal ∧ c.make = wienerMake R (.pair a b)) ∨ (noise = R.laplace ∧ c.make = laplaceMake R (.pair a b)))
    (st : SubSt G ℝ) (h : (newSub c st).2 = .ok ()) :
    ∃ (l xs : List ℝ) (s : ℝ) (n : ℕ) (g : G), (newSub c st).1.reference = some l ∧ (newSub c st).1.k = 0 ∧
      (newSub c st).1.len = n ∧ xs = (noise s n g).2 ∧ a ≤ s ∧ s ≤ b ∧ l.length = n ∧
      ∀ k x, xs[k]? = some x →
        l[k]? = some (max (min ((st.value :: l).getD k 0 + x) st.margin.2) st.margin.1) := by
  have hmake : c.make = walkMake R noise (.pair a b) := by
    rcases hc with ⟨rfl, h⟩ | ⟨rfl, h⟩ <;> exact h
  have hlen : ∀ s n g, (noise s n g).2.length = n := by
    rcases hc with ⟨rfl, -⟩ | ⟨rfl, -⟩
    · exact hR.normal
    · exact hR.laplace
  have hb : 0 < b := lt_of_lt_of_le ha hab
  have hscale : ∀ u : ℝ, 0 ≤ u → u < 1 →
      a ≤ (10 : ℝ) ^ ((Real.logb 10 b - Real.logb 10 a) * u + Real.logb 10 a) ∧
      (10 : ℝ) ^ ((Real.logb 10 b - Real.logb 10 a) * u + Real.logb 10 a) ≤ b := by
    intro u h0 h1
    have hl : Real.logb 10 a ≤ Real.logb 10 b := Real.logb_le_logb_of_le (by norm_num) ha hab
    have e1 : (10 : ℝ) ^ (Real.logb 10 a) = a := Real.rpow_logb (by norm_num) (by norm_num) ha
    have e2 : (10 : ℝ) ^ (Real.logb 10 b) = b := Real.rpow_logb (by norm_num) (by norm_num) hb
    constructor
    · conv_lhs => rw [← e1]
      exact Real.rpow_le_rpow_of_exponent_le (by norm_num) (by nlinarith)
    · conv_rhs => rw [← e2]
      exact Real.rpow_le_rpow_of_exponent_le (by norm_num) (by nlinarith)
  simp only [newSub, hmake] at h ⊢
  split at h
  · simp at h
  · rename_i n hn
    split at h
    · simp at h
    · rename_i l hl
      simp only [walkMake, logRange, currentValue] at hl
      split at hl
      · simp at hl
      · rename_i hnn
        simp only [Except.ok.injEq] at hl
        have hu := hR.uniform (c.drawLen st.gen).1
        refine ⟨l, _, _, n.toNat, (R.uniform (c.drawLen st.gen).1).1, rfl, rfl, ?_, rfl, (hscale _ hu.1 hu.2).1,
          (hscale _ hu.1 hu.2).2, ?_, ?_⟩
        · exact (Int.toNat_of_nonneg (not_lt.mp hnn)).symm
        · rw [← hl, walk_length, hlen]
        · intro k x hx
          rw [← hl]
          exact walk_steps _ _ _ _ _ hx

/-- A Wiener walk with increments 1 inside `[-1/2, 1/2]`: saturates immediately, and keeps the saturated value. -/
example : walk (-1 / 2, 1 / 2) (-1 / 4) [1 / 2, 1 / 2, -1 / 8] = [1 / 4, 1 / 2, 3 / 8] := by
  norm_num [walk]

end GEM.Props
