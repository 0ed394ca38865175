import Mathlib.Algebra.Order.Archimedean.Basic
import Mathlib.Algebra.Order.Field.Rat
import Mathlib.Data.Int.DivMod
import Mathlib.Tactic.Linarith
import Mathlib.Tactic.NormNum
import Mathlib.Tactic.Ring
import Verif.Model.Ramping
import Verif.Props.References

/-!
# C47, C80: ramping of the limit margin
-/

set_option linter.unusedSectionVars false

namespace GEM.Props

open GEM GEM.Refs GEM.Cb

variable {K : Type} [Field K] [LinearOrder K] [IsStrictOrderedRing K]

/-- The margin after `q` updates. -/
def rampTo (initial maximum : K × K) (stepSize : K) (q : ℕ) : K × K :=
  (max (initial.1 - q * stepSize) maximum.1, min (initial.2 + q * stepSize) maximum.2)

/-- How many of the events are of the kind the callback reacts to. -/
def relevant (mode : Mode) (es : List Event) : ℕ := es.countP (fun e => match mode, e with
  | .step, .stepEnd => true
  | .episode, .resetEnd => true
  | _, _ => false)

theorem relevant_eq (mode : Mode) (es : List Event) : relevant mode es = es.countP mode.counts := by
  unfold relevant
  congr 1

theorem grow_eq (c : Ramp K) :
    grow c = (max (c.margin.1 - c.stepSize) c.maximum.1, min (c.margin.2 + c.stepSize) c.maximum.2) := by
  simp only [grow, Prod.mk.injEq]
  constructor
  · split
    · rw [max_eq_left (by linarith)]
    · rw [max_eq_right (by linarith)]
  · split
    · rw [min_eq_left (by linarith)]
    · rw [min_eq_right (by linarith)]

theorem rampTo_succ (initial maximum : K × K) (s : K) (hs : 0 ≤ s) (q : ℕ) :
    (max ((rampTo initial maximum s q).1 - s) maximum.1, min ((rampTo initial maximum s q).2 + s) maximum.2) =
      rampTo initial maximum s (q + 1) := by
  simp only [rampTo, Prod.mk.injEq, Nat.cast_succ]
  constructor
  · rcases le_total (initial.1 - q * s) maximum.1 with h | h
    · rw [max_eq_right h, max_eq_right (by linarith), max_eq_right (by linarith)]
    · rw [max_eq_left h]; congr 1; ring
  · rcases le_total (initial.2 + q * s) maximum.2 with h | h
    · rw [min_eq_left h]; congr 1; ring
    · rw [min_eq_right h, min_eq_right (by linarith), min_eq_right (by linarith)]

/-- What holds between the events: `n` relevant events have happened. -/
structure RampInv (c0 c : Ramp K) (gs : List (Target K)) (n : ℕ) : Prop where
  maximum : c.maximum = c0.maximum
  stepSize : c.stepSize = c0.stepSize
  mode : c.mode = c0.mode
  freq : c.freq = c0.freq
  counter : c.counter = (n % c0.freq.natAbs : ℕ)
  margin : c.margin = rampTo c0.margin c0.maximum c0.stepSize (n / c0.freq.natAbs)
  targets : ∀ g ∈ gs, g.margin = c.margin

theorem mod_succ_cases (n f : ℕ) (hf : 0 < f) :
    ((n % f + 1) % f = 0 ∧ (n + 1) % f = 0 ∧ (n + 1) / f = n / f + 1) ∨
    ((n % f + 1) % f ≠ 0 ∧ (n + 1) % f = n % f + 1 ∧ (n + 1) / f = n / f) := by
  have hmod : (n % f + 1) % f = (n + 1) % f := by rw [Nat.add_mod, Nat.mod_mod, ← Nat.add_mod]
  have h1 := Nat.div_add_mod n f
  have h2 := Nat.mod_lt n hf
  by_cases h : (n + 1) % f = 0
  · left
    refine ⟨by rw [hmod, h], h, ?_⟩
    have hd := Nat.succ_div_of_dvd (Nat.dvd_of_mod_eq_zero h)
    exact hd
  · right
    have hd : ¬ f ∣ n + 1 := fun hd => h (Nat.mod_eq_zero_of_dvd hd)
    have hq := Nat.succ_div_of_not_dvd hd
    refine ⟨by rw [hmod]; exact h, ?_, hq⟩
    have h3 := Nat.div_add_mod (n + 1) f
    have hq' : (n + 1) / f = n / f := hq
    rw [hq'] at h3
    omega

theorem fmod_zero_iff (a b : ℤ) : Int.fmod a b = 0 ↔ b ∣ a := (Int.dvd_iff_fmod_eq_zero).symm

theorem onEvent_inv {c0 c : Ramp K} {gs : List (Target K)} {n : ℕ} (hs : 0 ≤ c0.stepSize) (hf : c0.freq ≠ 0)
    (h : RampInv c0 c gs n) (e : Event) :
    (onEvent e c gs).2 = .ok () ∧
      RampInv c0 (onEvent e c gs).1.1 (onEvent e c gs).1.2 (n + if c0.mode.counts e then 1 else 0) ∧
      (onEvent e c gs).1.2.length = gs.length := by
  unfold onEvent
  by_cases hm : c.mode.counts e
  · have hm0 : c0.mode.counts e = true := by rw [← h.mode]; exact hm
    simp only [hm, if_true, hm0]
    have hcf : c.freq ≠ 0 := by rw [h.freq]; exact hf
    rw [if_neg hcf]
    have hfp : 0 < c0.freq.natAbs := Int.natAbs_pos.2 hf
    have hdvd : (Int.fmod (c.counter + 1) c.freq = 0) ↔ (n % c0.freq.natAbs + 1) % c0.freq.natAbs = 0 := by
      rw [fmod_zero_iff, h.freq, h.counter, ← Int.natAbs_dvd,
        show ((n % c0.freq.natAbs : ℕ) : ℤ) + 1 = ((n % c0.freq.natAbs + 1 : ℕ) : ℤ) by push_cast; ring,
        Int.natCast_dvd_natCast]
      exact ⟨Nat.mod_eq_zero_of_dvd, Nat.dvd_of_mod_eq_zero⟩
    rcases mod_succ_cases n c0.freq.natAbs hfp with ⟨a1, a2, a3⟩ | ⟨a1, a2, a3⟩
    · rw [if_pos (hdvd.2 a1)]
      refine ⟨rfl, ?_, ?_⟩
      · have hgrow : grow { c with counter := 0 } = rampTo c0.margin c0.maximum c0.stepSize (n / c0.freq.natAbs + 1) := by
          rw [grow_eq]
          simp only [h.margin, h.stepSize, h.maximum]
          exact rampTo_succ _ _ _ hs _
        simp only [update]
        split
        · refine ⟨h.maximum, h.stepSize, h.mode, h.freq, by simp [a2], ?_, ?_⟩
          · rw [a3]; simpa using hgrow
          · intro g hg
            simp only [write, List.mem_map] at hg
            obtain ⟨g', _, rfl⟩ := hg
            rfl
        · rename_i hmax
          simp only [ne_eq, not_not] at hmax
          refine ⟨h.maximum, h.stepSize, h.mode, h.freq, by simp [a2], ?_, h.targets⟩
          rw [a3, ← hgrow, grow_eq]
          simp only [hmax]
          have : 0 ≤ c.stepSize := by rw [h.stepSize]; exact hs
          rw [max_eq_right (by linarith), min_eq_right (by linarith)]
      · simp only [update]; split <;> simp [write]
    · rw [if_neg (fun h' => a1 (hdvd.1 h'))]
      refine ⟨rfl, ⟨h.maximum, h.stepSize, h.mode, h.freq, ?_, ?_, h.targets⟩, rfl⟩
      · simp only; rw [a2, h.counter]; push_cast; ring
      · simp only; rw [a3, h.margin]
  · have hm0 : c0.mode.counts e = false := by rw [← h.mode]; simpa using hm
    simp only [hm, Bool.false_eq_true, if_false, hm0, add_zero]
    exact ⟨trivial, h, trivial⟩

theorem events_inv {c0 : Ramp K} (hs : 0 ≤ c0.stepSize) (hf : c0.freq ≠ 0) (es : List Event) :
    ∀ (c : Ramp K) (gs : List (Target K)) (n : ℕ), RampInv c0 c gs n →
      (events es (c, gs)).2 = .ok () ∧
      RampInv c0 (events es (c, gs)).1.1 (events es (c, gs)).1.2 (n + es.countP c0.mode.counts) ∧
      (events es (c, gs)).1.2.length = gs.length := by
  induction es with
  | nil => intro c gs n h; exact ⟨rfl, by simpa [events] using h, rfl⟩
  | cons e es ih =>
    intro c gs n h
    obtain ⟨h1, h2, h3⟩ := onEvent_inv hs hf h e
    obtain ⟨g1, g2, g3⟩ := ih _ _ _ h2
    simp only [events, Call.bind, h1]
    refine ⟨g1, ?_, by rw [g3, h3]⟩
    rw [List.countP_cons]
    have : n + (List.countP c0.mode.counts es + if c0.mode.counts e = true then 1 else 0) =
        n + (if c0.mode.counts e = true then 1 else 0) + List.countP c0.mode.counts es := by ring
    rw [this]
    exact g2

/-- A callback as the constructor makes it, and the generators after `set_env`. -/
theorem start_inv {initial maximum : K × K} {stepSize : K} {mode : Option Mode} {freq : ℤ} {c : Ramp K}
    (hc : Ramp.init initial maximum stepSize mode freq = .ok c) (hin : maximum.1 ≤ initial.1 ∧ initial.2 ≤ maximum.2)
    {gs gs' : List (Target K)} (hg : setEnv c gs = .ok gs') :
    c.maximum = maximum ∧ c.margin = initial ∧ c.stepSize = stepSize ∧ c.freq = freq ∧ mode = some c.mode ∧
      RampInv c c gs' 0 := by
  cases mode with
  | none => simp [Ramp.init] at hc
  | some mode =>
    simp only [Ramp.init] at hc
    split at hc
    · simp only [Except.ok.injEq] at hc
      subst hc
      simp only [setEnv] at hg
      split at hg
      · simp only [Except.ok.injEq] at hg
        subst hg
        refine ⟨rfl, rfl, rfl, rfl, rfl, ⟨rfl, rfl, rfl, rfl, by simp, ?_, ?_⟩⟩
        · simp [rampTo, hin.1, hin.2]
        · intro g hg
          simp only [write, List.mem_map] at hg
          obtain ⟨g', _, rfl⟩ := hg
          rfl
      · simp at hg
    · simp at hc

/-- C47 (closed form): for an initial margin inside the maximum and a step size that is not negative, after every sequence
of events every generator has the margin widened once per `update_freq` events of the configured kind, cut at the maximum;
events of the other kind have no effect. -/
theorem c47_margin_partial (initial maximum : K × K) (stepSize : K) (mode : Mode) (freq : ℤ) (c : Ramp K)
    (hc : Ramp.init initial maximum stepSize (some mode) freq = .ok c)
    (hin : maximum.1 ≤ initial.1 ∧ initial.2 ≤ maximum.2) (hs : 0 ≤ stepSize) (hf : freq ≠ 0)
    (gs gs' : List (Target K)) (hg : setEnv c gs = .ok gs') (es : List Event) :
    (events es (c, gs')).2 = .ok () ∧ (events es (c, gs')).1.2.length = gs'.length ∧
    ∀ g ∈ (events es (c, gs')).1.2, g.margin =
      (max (initial.1 - (relevant mode es / freq.natAbs : ℕ) * stepSize) maximum.1,
       min (initial.2 + (relevant mode es / freq.natAbs : ℕ) * stepSize) maximum.2) := by
  obtain ⟨h1, h2, h3, h4, h5, h6⟩ := start_inv hc hin hg
  have hmode : c.mode = mode := by simpa using h5.symm
  obtain ⟨g1, g2, g3⟩ := events_inv (by rw [h3]; exact hs) (by rw [h4]; exact hf) es c gs' 0 h6
  refine ⟨g1, g3, ?_⟩
  intro g hg
  rw [g2.targets g hg, g2.margin, h1, h2, h3, h4, zero_add, relevant_eq, hmode]
  rfl

/-- C47 (consequences): the margins never exceed the maximum, never shrink when further events happen, and do not change
unless one more multiple of `update_freq` is complete. -/
theorem c47_widens_partial (initial maximum : K × K) (stepSize : K) (mode : Mode) (freq : ℤ) (c : Ramp K)
    (hc : Ramp.init initial maximum stepSize (some mode) freq = .ok c)
    (hin : maximum.1 ≤ initial.1 ∧ initial.2 ≤ maximum.2) (hs : 0 ≤ stepSize) (hf : freq ≠ 0)
    (gs gs' : List (Target K)) (hg : setEnv c gs = .ok gs') (es es' : List Event)
    (g g' : Target K) (hm : g ∈ (events es (c, gs')).1.2) (hm' : g' ∈ (events (es ++ es') (c, gs')).1.2) :
    maximum.1 ≤ g.margin.1 ∧ g.margin.2 ≤ maximum.2 ∧ g'.margin.1 ≤ g.margin.1 ∧ g.margin.2 ≤ g'.margin.2 ∧
    (relevant mode (es ++ es') / freq.natAbs = relevant mode es / freq.natAbs → g'.margin = g.margin) := by
  have e := (c47_margin_partial initial maximum stepSize mode freq c hc hin hs hf gs gs' hg es).2.2 g hm
  have e' := (c47_margin_partial initial maximum stepSize mode freq c hc hin hs hf gs gs' hg (es ++ es')).2.2 g' hm'
  have hle : relevant mode es / freq.natAbs ≤ relevant mode (es ++ es') / freq.natAbs := by
    apply Nat.div_le_div_right
    simp [relevant, List.countP_append]
  have hcast : ((relevant mode es / freq.natAbs : ℕ) : K) ≤ ((relevant mode (es ++ es') / freq.natAbs : ℕ) : K) :=
    Nat.cast_le.2 hle
  have hmul := mul_le_mul_of_nonneg_right hcast hs
  rw [e, e']
  refine ⟨le_max_right _ _, min_le_right _ _, max_le_max (by linarith) le_rfl, min_le_min (by linarith) le_rfl, ?_⟩
  intro h; rw [h]

/-- C47 (the maximum is reached): for a positive step size there is a number of events of the configured kind after which
all generators have the maximum margin, for ever. -/
theorem c47_reaches_partial [Archimedean K] (initial maximum : K × K) (stepSize : K) (mode : Mode) (freq : ℤ) (c : Ramp K)
    (hc : Ramp.init initial maximum stepSize (some mode) freq = .ok c)
    (hin : maximum.1 ≤ initial.1 ∧ initial.2 ≤ maximum.2) (hs : 0 < stepSize) (hf : freq ≠ 0)
    (gs gs' : List (Target K)) (hg : setEnv c gs = .ok gs') :
    ∃ n, ∀ es, n ≤ relevant mode es → ∀ g ∈ (events es (c, gs')).1.2, g.margin = maximum := by
  obtain ⟨a, ha⟩ := Archimedean.arch (initial.1 - maximum.1) hs
  obtain ⟨b, hb⟩ := Archimedean.arch (maximum.2 - initial.2) hs
  have hfp : 0 < freq.natAbs := Int.natAbs_pos.2 hf
  refine ⟨max a b * freq.natAbs, ?_⟩
  intro es hes g hm
  have e := (c47_margin_partial initial maximum stepSize mode freq c hc hin hs.le hf gs gs' hg es).2.2 g hm
  have hq : max a b ≤ relevant mode es / freq.natAbs := (Nat.le_div_iff_mul_le hfp).2 hes
  simp only [nsmul_eq_mul] at ha hb
  have h1 : (a : K) ≤ ((relevant mode es / freq.natAbs : ℕ) : K) := Nat.cast_le.2 ((le_max_left _ _).trans hq)
  have h2 : (b : K) ≤ ((relevant mode es / freq.natAbs : ℕ) : K) := Nat.cast_le.2 ((le_max_right _ _).trans hq)
  have h1' := mul_le_mul_of_nonneg_right h1 hs.le
  have h2' := mul_le_mul_of_nonneg_right h2 hs.le
  rw [e, max_eq_right (by linarith), min_eq_right (by linarith)]

/-- a callback with the default arguments (step size 1/10, every second episode): after five episodes, two updates -/
example : (Ramp.init (-1/10, 1/10) (-1, 1) (1/10 : ℚ) (some .episode) 2).toOption.map (fun c =>
    (events [.resetEnd, .stepEnd, .resetEnd, .stepEnd, .stepEnd, .resetEnd, .resetEnd, .resetEnd] (c, [⟨true, c.margin⟩])).1.2.map
      (·.margin)) = some [(-3/10, 3/10)] := by
  decide +kernel

/-- C47 (violated): the constructor accepts an initial margin that is wider than the maximum; the generators then get a
margin beyond the maximum, and the first update shrinks it. -/
theorem c47_shrinks_violated : ∃ (c : Ramp ℚ) (gs : List (Target ℚ)),
    Ramp.init (-1, 1) (-1/2, 1/2) (1/10) (some .step) 1 = .ok c ∧ setEnv c [⟨true, (-1, 1)⟩] = .ok gs ∧
    gs.map (·.margin) = [(-1, 1)] ∧ (events [.stepEnd] (c, gs)).1.2.map (·.margin) = [(-1/2, 1/2)] :=
  ⟨⟨(-1, 1), (-1/2, 1/2), 1/10, .step, 1, 0⟩, [⟨true, (-1, 1)⟩], by decide +kernel, rfl, by decide +kernel,
    by decide +kernel⟩

/-- C47 (violated): a negative step size is accepted too; the margin then shrinks with every update until its ends have
changed places. -/
theorem c47_negative_violated : ∃ (c : Ramp ℚ) (gs : List (Target ℚ)),
    Ramp.init (-1/10, 1/10) (-1, 1) (-1/10) (some .step) 1 = .ok c ∧ setEnv c [⟨true, (-1, 1)⟩] = .ok gs ∧
    (events [.stepEnd] (c, gs)).1.2.map (·.margin) = [(0, 0)] ∧
    (events [.stepEnd, .stepEnd] (c, gs)).1.2.map (·.margin) = [(1/10, -1/10)] :=
  ⟨⟨(-1/10, 1/10), (-1, 1), -1/10, .step, 1, 0⟩, [⟨true, (-1/10, 1/10)⟩], by decide +kernel, rfl,
    by decide +kernel, by decide +kernel⟩

/-- C47.  The constructor accepts exactly the pairs of proper intervals inside `[-1, 1]`. -/
theorem c47_accepts (initial maximum : K × K) (stepSize : K) (mode : Mode) (freq : ℤ) :
    (∃ c, Ramp.init initial maximum stepSize (some mode) freq = .ok c)
      ↔ ∀ m ∈ [initial, maximum], -1 ≤ m.1 ∧ m.1 < m.2 ∧ m.2 ≤ 1 := by
  simp only [Ramp.init, List.forall_mem_cons, List.not_mem_nil, false_imp_iff, implies_true, and_true]
  split
  · rename_i h
    exact ⟨fun _ => ⟨⟨h.2.2.1, h.1, h.2.2.2.2.1⟩, h.2.2.2.1, h.2.1, h.2.2.2.2.2⟩, fun _ => ⟨_, rfl⟩⟩
  · rename_i h
    simp only [reduceCtorEq, exists_false, false_iff]
    rintro ⟨⟨a, b, c⟩, d, e, f⟩
    exact h ⟨b, e, a, d, c, f⟩

/-- C47 (violated): `update_freq = 0` is accepted and makes the first step (or reset) of the environment raise. -/
theorem c47_zero_violated (initial maximum : K × K) (stepSize : K) (c : Ramp K)
    (hc : Ramp.init initial maximum stepSize (some .step) 0 = .ok c) (gs : List (Target K)) :
    (events [.stepEnd] (c, gs)).2 = .error .zeroDiv := by
  simp only [Ramp.init] at hc
  split at hc
  · simp only [Except.ok.injEq] at hc
    subst hc
    rfl
  · simp at hc

/-! ## C80: the reference space -/

section Space

variable {G : Type}

theorem bind_margin {α β : Type} (m : ℝ × ℝ) (r : Call (SubSt G ℝ) α) (f : SubSt G ℝ → α → Call (SubSt G ℝ) β)
    (h1 : r.1.margin = m) (h2 : ∀ st a, st.margin = m → (f st a).1.margin = m) : (r.bind f).1.margin = m := by
  unfold Call.bind
  split
  · exact h2 _ _ h1
  · exact h1

theorem nextValue_margin (st : SubSt G ℝ) : (nextValue st).1.margin = st.margin := by
  unfold nextValue
  split
  · rfl
  · split <;> rfl

theorem subObs_margin (c : SubCfg G ℝ) (st : SubSt G ℝ) : (subObs c st).1.margin = st.margin := by
  unfold subObs
  split
  · exact bind_margin _ _ _ (newSub_margin c st) (fun st' _ h => (nextValue_margin st').trans h)
  · exact nextValue_margin st

theorem baseReset_margin (c : SubCfg G ℝ) (st : SubSt G ℝ) :
    (baseReset (subRef c) (subObs c) st).1.margin = st.margin := by
  unfold baseReset
  refine bind_margin _ _ _ rfl (fun st' _ h => bind_margin _ _ _ ((subObs_margin c st').trans h) (fun _ _ h => h))

theorem subResetWith_margin (c : SubCfg G ℝ) (st : SubSt G ℝ) (init : Option (List ℝ)) :
    (subResetWith c st init).1.margin = st.margin := by
  unfold subResetWith
  split
  · exact baseReset_margin c _
  · split
    · rfl
    · exact baseReset_margin c _

theorem apply_margin (c : SubCfg G ℝ) (st : SubSt G ℝ) (op : Op ℝ) :
    (Refs.apply (subGen c) st op).1.margin = st.margin := by
  cases op with
  | reset s i =>
    simp only [Refs.apply, subGen, subReset]
    split
    · exact subResetWith_margin c _ _
    · exact subResetWith_margin c _ _
  | ref s => rfl
  | obs s => exact subObs_margin c st

/-- What a generator with a ramping callback experiences: calls of the environment, and the margins the callback writes at
the events in between. -/
noncomputable def withRamp : Ramp ℝ → List (Op ℝ ⊕ Event) → List MOp
  | _, [] => []
  | c, .inl op :: l => .call op :: withRamp c l
  | c, .inr e :: l => .margin (onEvent e c []).1.1.margin :: withRamp (onEvent e c []).1.1 l

theorem rampTo_mono (initial maximum : ℝ × ℝ) (s : ℝ) (hs : 0 ≤ s) {q q' : ℕ} (h : q ≤ q') :
    (rampTo initial maximum s q').1 ≤ (rampTo initial maximum s q).1 ∧
    (rampTo initial maximum s q).2 ≤ (rampTo initial maximum s q').2 := by
  have hc : (q : ℝ) ≤ q' := Nat.cast_le.2 h
  have := mul_le_mul_of_nonneg_right hc hs
  exact ⟨max_le_max (by linarith) le_rfl, min_le_min (by linarith) le_rfl⟩

theorem withRamp_ok {c0 : Ramp ℝ} (hs : 0 ≤ c0.stepSize) (hf : c0.freq ≠ 0) (cfg : SubCfg G ℝ) (l : List (Op ℝ ⊕ Event)) :
    ∀ (c : Ramp ℝ) (n : ℕ) (st : SubSt G ℝ), RampInv c0 c [] n → st.margin = c.margin →
      Widening c.margin (withRamp c l) ∧
      ∀ p ∈ runM cfg st (withRamp c l), c0.maximum.1 ≤ p.1.1 ∧ p.1.2 ≤ c0.maximum.2 := by
  induction l with
  | nil => intro c n st _ _; simp [withRamp, Widening, runM]
  | cons x l ih =>
    intro c n st h hst
    have hin : c0.maximum.1 ≤ c.margin.1 ∧ c.margin.2 ≤ c0.maximum.2 := by
      rw [h.margin]; exact ⟨le_max_right _ _, min_le_right _ _⟩
    cases x with
    | inl op =>
      obtain ⟨h1, h2⟩ := ih c n (Refs.apply (subGen cfg) st op).1 h ((apply_margin cfg st op).trans hst)
      refine ⟨h1, ?_⟩
      intro p hp
      simp only [withRamp, runM, List.mem_cons] at hp
      rcases hp with rfl | hp
      · simp only; rw [hst]; exact hin
      · exact h2 p hp
    | inr e =>
      obtain ⟨_, g2, g3⟩ := onEvent_inv hs hf h e
      have hnil : (onEvent e c ([] : List (Target ℝ))).1.2 = [] := List.length_eq_zero_iff.1 g3
      rw [hnil] at g2
      obtain ⟨h1, h2⟩ := ih _ _ { st with margin := (onEvent e c []).1.1.margin } g2 rfl
      have hm : n / c0.freq.natAbs ≤ (n + if c0.mode.counts e = true then 1 else 0) / c0.freq.natAbs :=
        Nat.div_le_div_right (by omega)
      have hmono := rampTo_mono c0.margin c0.maximum c0.stepSize hs hm
      rw [← h.margin, ← g2.margin] at hmono
      exact ⟨⟨hmono.1, hmono.2, h1⟩, h2⟩

/-- C80: with a ramping callback (initial margin inside the maximum, step size not negative) whose maximum margin lies inside
the reference space, every reference of every generator of the package lies in the reference space, in every history of
calls and callback events and for every outcome of the random draws. -/
theorem c80_space_partial (R : Rng G) (k : Kind) (cfg : SubCfg G ℝ) (hc : cfg.make = k.make R)
    (initial maximum : ℝ × ℝ) (stepSize : ℝ) (mode : Mode) (freq : ℤ) (c : Ramp ℝ)
    (hr : Ramp.init initial maximum stepSize (some mode) freq = .ok c)
    (hin : maximum.1 ≤ initial.1 ∧ initial.2 ≤ maximum.2) (hs : 0 ≤ stepSize) (hf : freq ≠ 0)
    (hspace : cfg.low ≤ maximum.1 ∧ maximum.2 ≤ cfg.high)
    (st : SubSt G ℝ) (h0 : st.reference = none) (hst : st.margin = initial) (l : List (Op ℝ ⊕ Event)) :
    ∀ p ∈ runM cfg st (withRamp c l), ∀ o, p.2.observation = some o → Inside (cfg.low, cfg.high) o := by
  obtain ⟨h1, h2, h3, h4, h5, h6⟩ := start_inv (gs := []) (gs' := []) hr hin rfl
  have hle : initial.1 ≤ initial.2 := by
    simp only [Ramp.init] at hr
    split at hr
    · rename_i h; exact h.1.le
    · simp at hr
  obtain ⟨w1, w2⟩ := withRamp_ok (by rw [h3]; exact hs) (by rw [h4]; exact hf) cfg l c 0 st h6 (by rw [hst, h2])
  intro p hp o ho v hv
  have hm := c41_margin R k cfg hc st h0 (by rw [hst]; exact hle) (withRamp c l) (by rw [hst, ← h2]; exact w1) p hp o ho v hv
  have hb := w2 p hp
  rw [h1] at hb
  exact ⟨(hspace.1.trans hb.1).trans hm.1, hm.2.trans (hb.2.trans hspace.2)⟩

/-- A generator whose increments are all -1. -/
noncomputable def fallingRng : Rng Unit where
  uniform g := (g, 0)
  normal _ n g := (g, List.replicate n (-1))
  laplace _ n g := (g, List.replicate n (-1))
  triangular g := (g, 0)

theorem fallingRng_ok : RngOk fallingRng := by
  constructor <;> intros <;> simp [fallingRng]

/-- C80 (violated): the callback's default margins are written over the margin of the generator without regard to the state
space.  The reference of a state that cannot be negative then becomes -0.1, outside the reference space. -/
theorem c80_space_violated : ∃ (cfg : SubCfg Unit ℝ) (c : Ramp ℝ) (st : SubSt Unit ℝ) (o : List ℝ),
    cfg.make = (Kind.laplace (.pair 1 1)).make fallingRng ∧ cfg.drawLen = lenDraw fallingRng (.pair 1 1) ∧
    setMargin 1 1 0 1 .none = .ok (cfg.low, cfg.high) ∧
    Ramp.init (-(1/10), 1/10) (-1, 1) (1/10) (some .episode) 10 = .ok c ∧
    st = { subInit (cfg.low, cfg.high) 1 () with margin := c.margin } ∧
    (runM cfg st (withRamp c [.inl (.reset [0] none), .inr .resetEnd])).map (fun p => p.2.observation) = [some o] ∧
    ¬ Inside (cfg.low, cfg.high) o := by
  refine ⟨⟨"omega", [true], 0, 1, lenDraw fallingRng (.pair 1 1), (Kind.laplace (.pair 1 1)).make fallingRng, fun _ => (),
    none⟩, ⟨(-(1/10), 1/10), (-1, 1), 1/10, .episode, 10, 0⟩, _, [-(1/10)], rfl, rfl, ?_, ?_, rfl, ?_, ?_⟩
  · norm_num [setMargin]
  · simp only [Ramp.init]
    rw [if_pos (by norm_num)]
  · have hlen : lenDraw fallingRng (.pair 1 1) () = ((), .ok 1) := by
      simp [lenDraw, currentValue, fallingRng, Except.map, pyInt]
    have hmake : (Kind.laplace (.pair 1 1)).make fallingRng (-(1/10), 1/10) 0 1 () = ((), .ok [-(1/10)]) := by
      simp only [Kind.make, laplaceMake, walkMake, logRange, currentValue, fallingRng]
      norm_num [walk]
    simp only [withRamp, runM, Refs.apply, subGen, subReset, subResetWith, subInit, baseReset, Call.bind, subRef, subObs]
    simp only [newSub, hlen, hmake, nextValue]
    norm_num [Call.bind, Out.observation]
  · intro h
    have := h (-(1/10)) (by simp)
    norm_num at this

end Space

end GEM.Props
