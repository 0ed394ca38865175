import Verif.Model.Seeding
import Verif.Model.Env
import Mathlib.Tactic.Linarith
import Mathlib.Data.List.Nodup
import Mathlib.Data.Rat.Cast.Order
import Mathlib.Tactic.NormNum

/-!
# Properties C04 (seeding) and C64 (random streams)
-/

set_option linter.unusedSectionVars false

namespace GEM.Props

open GEM GEM.Seeding

/-! ## Helper lemmas: streams below a seeded module -/

mutual
theorem seed_streams_shape (s : SeedSeq) : ∀ (k k' : Comp), k.shape = k'.shape → (k.seed s).streams = (k'.seed s).streams
  | .plain, .plain, _ => rfl
  | .rand _, .rand _, _ => rfl
  | .wrapper _ a, .wrapper _ b, h => by
    simp only [Comp.shape, Comp.wrapper.injEq, true_and] at h
    simp only [Comp.seed, Comp.streams]
    exact seed_streams_shape s a b h
  | .system _ a, .system _ b, h => by
    simp only [Comp.shape, Comp.system.injEq, true_and] at h
    simp only [Comp.seed, Comp.streams]
    rw [seedAll_streams_shape _ _ _ a b h]
  | .multi _ a, .multi _ b, h => by
    simp only [Comp.shape, Comp.multi.injEq, true_and] at h
    simp only [Comp.seed, Comp.streams]
    rw [seedRandoms_streams_shape _ _ _ a b h]
  | .plain, .rand _, h => by simp [Comp.shape] at h
  | .plain, .wrapper _ _, h => by simp [Comp.shape] at h
  | .plain, .system _ _, h => by simp [Comp.shape] at h
  | .plain, .multi _ _, h => by simp [Comp.shape] at h
  | .rand _, .plain, h => by simp [Comp.shape] at h
  | .rand _, .wrapper _ _, h => by simp [Comp.shape] at h
  | .rand _, .system _ _, h => by simp [Comp.shape] at h
  | .rand _, .multi _ _, h => by simp [Comp.shape] at h
  | .wrapper _ _, .plain, h => by simp [Comp.shape] at h
  | .wrapper _ _, .rand _, h => by simp [Comp.shape] at h
  | .wrapper _ _, .system _ _, h => by simp [Comp.shape] at h
  | .wrapper _ _, .multi _ _, h => by simp [Comp.shape] at h
  | .system _ _, .plain, h => by simp [Comp.shape] at h
  | .system _ _, .rand _, h => by simp [Comp.shape] at h
  | .system _ _, .wrapper _ _, h => by simp [Comp.shape] at h
  | .system _ _, .multi _ _, h => by simp [Comp.shape] at h
  | .multi _ _, .plain, h => by simp [Comp.shape] at h
  | .multi _ _, .rand _, h => by simp [Comp.shape] at h
  | .multi _ _, .wrapper _ _, h => by simp [Comp.shape] at h
  | .multi _ _, .system _ _, h => by simp [Comp.shape] at h
theorem seedAll_streams_shape (e : ℕ) (key : List ℕ) (n : ℕ) : ∀ (k k' : Comps), k.shape = k'.shape →
    (k.seedAll e key n).streams = (k'.seedAll e key n).streams
  | .nil, .nil, _ => rfl
  | .cons a as, .cons b bs, h => by
    simp only [Comps.shape, Comps.cons.injEq] at h
    simp only [Comps.seedAll, Comps.streams]
    rw [seedAll_streams_shape e key (n + 1) as bs h.2]
    congr 1
    have hr : a.isRandom = b.isRandom := by
      have : ∀ c : Comp, c.shape.isRandom = c.isRandom := by intro c; cases c <;> rfl
      rw [← this a, ← this b, h.1]
    rw [hr]
    cases hb : b.isRandom
    · have ha : a.isRandom = false := hr.trans hb
      cases a <;> cases b <;> simp_all [Comp.isRandom, Comp.streams]
    · exact seed_streams_shape _ a b h.1
  | .nil, .cons _ _, h => by simp [Comps.shape] at h
  | .cons _ _, .nil, h => by simp [Comps.shape] at h
theorem seedRandoms_streams_shape (e : ℕ) (key : List ℕ) (n : ℕ) : ∀ (k k' : Comps), k.shape = k'.shape →
    (k.seedRandoms e key n).streams = (k'.seedRandoms e key n).streams
  | .nil, .nil, _ => rfl
  | .cons a as, .cons b bs, h => by
    simp only [Comps.shape, Comps.cons.injEq] at h
    simp only [Comps.seedRandoms]
    have hr : a.isRandom = b.isRandom := by
      have : ∀ c : Comp, c.shape.isRandom = c.isRandom := by intro c; cases c <;> rfl
      rw [← this a, ← this b, h.1]
    rw [hr]
    cases hb : b.isRandom
    · have ha : a.isRandom = false := hr.trans hb
      simp only [Bool.false_eq_true, if_false, Comps.streams]
      rw [seedRandoms_streams_shape e key n as bs h.2]
      congr 1
      cases a <;> cases b <;> simp_all [Comp.isRandom, Comp.streams]
    · simp only [if_true, Comps.streams]
      rw [seedRandoms_streams_shape e key (n + 1) as bs h.2, seed_streams_shape _ a b h.1]
  | .nil, .cons _ _, h => by simp [Comps.shape] at h
  | .cons _ _, .nil, h => by simp [Comps.shape] at h
end

/-- C04 (generators): after seeding, the generators of all modules that are reached by the seeding are a function of the seed
(and of which modules there are), whatever generators they had before. -/
theorem c04_seed_determines_streams (seed : ℕ) (cs cs' : Comps) (h : cs.shape = cs'.shape) :
    (envSeed seed cs).streams = (envSeed seed cs').streams :=
  seedAll_streams_shape seed [] 0 cs cs' h

mutual
theorem seed_wrapperStreams (s : SeedSeq) : ∀ k : Comp, (k.seed s).wrapperStreams = k.wrapperStreams
  | .plain => rfl
  | .rand _ => rfl
  | .wrapper own k => by simp only [Comp.seed, Comp.wrapperStreams]; rw [seed_wrapperStreams s k]
  | .system _ ks => by simp only [Comp.seed, Comp.wrapperStreams]; rw [seedAll_wrapperStreams _ _ _ ks]
  | .multi _ ks => by simp only [Comp.seed, Comp.wrapperStreams]; rw [seedRandoms_wrapperStreams _ _ _ ks]
theorem seedAll_wrapperStreams (e : ℕ) (key : List ℕ) (n : ℕ) :
    ∀ ks : Comps, (ks.seedAll e key n).wrapperStreams = ks.wrapperStreams
  | .nil => rfl
  | .cons k ks => by
    simp only [Comps.seedAll, Comps.wrapperStreams]
    rw [seedAll_wrapperStreams e key (n + 1) ks]
    split
    · rw [seed_wrapperStreams _ k]
    · rfl
theorem seedRandoms_wrapperStreams (e : ℕ) (key : List ℕ) (n : ℕ) :
    ∀ ks : Comps, (ks.seedRandoms e key n).wrapperStreams = ks.wrapperStreams
  | .nil => rfl
  | .cons k ks => by
    simp only [Comps.seedRandoms]
    split
    · simp only [Comps.wrapperStreams]; rw [seed_wrapperStreams _ k, seedRandoms_wrapperStreams e key (n + 1) ks]
    · simp only [Comps.wrapperStreams]; rw [seedRandoms_wrapperStreams e key n ks]
end

/-- C04 is violated by wrappers: seeding never reaches the generator of a physical system wrapper (e.g. the state noise
wrapper), in no module tree. -/
theorem c04_wrapper_unseeded_violated (seed : ℕ) (cs : Comps) :
    (envSeed seed cs).wrapperStreams = cs.wrapperStreams := seedAll_wrapperStreams seed [] 0 cs

/-! ## C64 No two components share a random stream -/

/-- All streams of a seeded module extend the key of the sequence it was given. -/
def Under (e : ℕ) (key : List ℕ) (st : Stream) : Prop := st.entropy = e ∧ ∃ t, st.key = key ++ t

mutual
theorem seed_under (e : ℕ) (key : List ℕ) : ∀ k : Comp, ∀ st ∈ (k.seed ⟨e, key, 0⟩).streams, Under e key st
  | .plain, st, h => by simp [Comp.seed, Comp.streams] at h
  | .rand _, st, h => by
    simp only [Comp.seed, Comp.streams, RC.seed, SeedSeq.spawn1, List.mem_singleton] at h
    subst h; exact ⟨rfl, [0], rfl⟩
  | .wrapper _ k, st, h => by
    simp only [Comp.seed, Comp.streams] at h
    exact seed_under e key k st h
  | .system _ ks, st, h => by
    simp only [Comp.seed, Comp.streams, RC.seed, SeedSeq.spawn1, List.mem_cons] at h
    rcases h with rfl | h
    · exact ⟨rfl, [0], rfl⟩
    · obtain ⟨h1, i, _, t, ht⟩ := seedAll_under e key (0 + 1) ks st h
      exact ⟨h1, i :: t, by rw [ht]; simp⟩
  | .multi _ ks, st, h => by
    simp only [Comp.seed, Comp.streams, RC.seed, SeedSeq.spawn1, List.mem_cons] at h
    rcases h with rfl | h
    · exact ⟨rfl, [0], rfl⟩
    · obtain ⟨h1, i, _, t, ht⟩ := seedRandoms_under e key (0 + 1) ks st h
      exact ⟨h1, i :: t, by rw [ht]; simp⟩
theorem seedAll_under (e : ℕ) (key : List ℕ) (n : ℕ) : ∀ ks : Comps, ∀ st ∈ (ks.seedAll e key n).streams,
    st.entropy = e ∧ ∃ i, n ≤ i ∧ ∃ t, st.key = key ++ [i] ++ t
  | .nil, st, h => by simp [Comps.seedAll, Comps.streams] at h
  | .cons k ks, st, h => by
    simp only [Comps.seedAll, Comps.streams, List.mem_append] at h
    rcases h with h | h
    · split at h
      · obtain ⟨h1, t, ht⟩ := seed_under e (key ++ [n]) k st h
        exact ⟨h1, n, le_refl _, t, ht⟩
      · rename_i hr
        cases k <;> simp_all [Comp.isRandom, Comp.streams]
    · obtain ⟨h1, i, hi, t, ht⟩ := seedAll_under e key (n + 1) ks st h
      exact ⟨h1, i, by omega, t, ht⟩
theorem seedRandoms_under (e : ℕ) (key : List ℕ) (n : ℕ) : ∀ ks : Comps, ∀ st ∈ (ks.seedRandoms e key n).streams,
    st.entropy = e ∧ ∃ i, n ≤ i ∧ ∃ t, st.key = key ++ [i] ++ t
  | .nil, st, h => by simp [Comps.seedRandoms, Comps.streams] at h
  | .cons k ks, st, h => by
    simp only [Comps.seedRandoms] at h
    split at h
    · simp only [Comps.streams, List.mem_append] at h
      rcases h with h | h
      · obtain ⟨h1, t, ht⟩ := seed_under e (key ++ [n]) k st h
        exact ⟨h1, n, le_refl _, t, ht⟩
      · obtain ⟨h1, i, hi, t, ht⟩ := seedRandoms_under e key (n + 1) ks st h
        exact ⟨h1, i, by omega, t, ht⟩
    · rename_i hr
      simp only [Comps.streams, List.mem_append] at h
      rcases h with h | h
      · cases k <;> simp_all [Comp.isRandom, Comp.streams]
      · exact seedRandoms_under e key n ks st h
end

theorem child_ne {key : List ℕ} {i j : ℕ} {t u : List ℕ} (hij : i < j) : key ++ [i] ++ t ≠ key ++ [j] ++ u := by
  intro h
  simp only [List.append_assoc, List.append_cancel_left_eq, List.cons_append, List.nil_append, List.cons.injEq] at h
  omega

mutual
theorem seed_nodup (e : ℕ) (key : List ℕ) : ∀ k : Comp, (k.seed ⟨e, key, 0⟩).streams.Nodup
  | .plain => by simp [Comp.seed, Comp.streams]
  | .rand _ => by simp [Comp.seed, Comp.streams]
  | .wrapper _ k => by simp only [Comp.seed, Comp.streams]; exact seed_nodup e key k
  | .system _ ks => by
    simp only [Comp.seed, Comp.streams, RC.seed, SeedSeq.spawn1, List.nodup_cons]
    refine ⟨?_, seedAll_nodup e key (0 + 1) ks⟩
    intro h
    obtain ⟨_, i, hi, t, ht⟩ := seedAll_under e key (0 + 1) ks _ h
    exact child_ne (key := key) (i := 0) (j := i) (t := []) (u := t) (by omega) (by simpa using ht)
  | .multi _ ks => by
    simp only [Comp.seed, Comp.streams, RC.seed, SeedSeq.spawn1, List.nodup_cons]
    refine ⟨?_, seedRandoms_nodup e key (0 + 1) ks⟩
    intro h
    obtain ⟨_, i, hi, t, ht⟩ := seedRandoms_under e key (0 + 1) ks _ h
    exact child_ne (key := key) (i := 0) (j := i) (t := []) (u := t) (by omega) (by simpa using ht)
theorem seedAll_nodup (e : ℕ) (key : List ℕ) (n : ℕ) : ∀ ks : Comps, (ks.seedAll e key n).streams.Nodup
  | .nil => by simp [Comps.seedAll, Comps.streams]
  | .cons k ks => by
    simp only [Comps.seedAll, Comps.streams]
    rw [List.nodup_append]
    refine ⟨?_, seedAll_nodup e key (n + 1) ks, ?_⟩
    · split
      · exact seed_nodup e _ k
      · rename_i hr
        cases k <;> simp_all [Comp.isRandom, Comp.streams]
    · intro a ha b hb hab
      subst hab
      obtain ⟨_, i, hi, t, ht⟩ := seedAll_under e key (n + 1) ks a hb
      split at ha
      · obtain ⟨_, u, hu⟩ := seed_under e (key ++ [n]) k a ha
        exact child_ne (key := key) (i := n) (j := i) (by omega) (hu.symm.trans ht)
      · rename_i hr
        cases k <;> simp_all [Comp.isRandom, Comp.streams]
theorem seedRandoms_nodup (e : ℕ) (key : List ℕ) (n : ℕ) : ∀ ks : Comps, (ks.seedRandoms e key n).streams.Nodup
  | .nil => by simp [Comps.seedRandoms, Comps.streams]
  | .cons k ks => by
    simp only [Comps.seedRandoms]
    split
    · simp only [Comps.streams]
      rw [List.nodup_append]
      refine ⟨seed_nodup e _ k, seedRandoms_nodup e key (n + 1) ks, ?_⟩
      intro a ha b hb hab
      subst hab
      obtain ⟨_, i, hi, t, ht⟩ := seedRandoms_under e key (n + 1) ks a hb
      obtain ⟨_, u, hu⟩ := seed_under e (key ++ [n]) k a ha
      exact child_ne (key := key) (i := n) (j := i) (by omega) (hu.symm.trans ht)
    · rename_i hr
      have h0 : k.streams = [] := by cases k <;> simp_all [Comp.isRandom, Comp.streams]
      simp only [Comps.streams, h0, List.nil_append]
      exact seedRandoms_nodup e key n ks
end

/-- C64: in every module tree and for every seed, no two seeded components share a random stream. -/
theorem c64_streams_distinct (seed : ℕ) (cs : Comps) : (envSeed seed cs).streams.Nodup := seedAll_nodup seed [] 0 cs

/-- The i-th generator a component draws after it was seeded. -/
def nthStream (s : SeedSeq) (n : ℕ) : Stream := ((RC.next)^[n] (RC.seed s)).gen

theorem iterate_next (s : SeedSeq) (n : ℕ) :
    (RC.next)^[n] (RC.seed s) = ⟨{ s with spawned := s.spawned + n + 1 }, ⟨s.entropy, s.key ++ [s.spawned + n]⟩⟩ := by
  induction n with
  | zero => rfl
  | succ n ih =>
    rw [Function.iterate_succ_apply', ih]
    rfl

/-- C64 (episodes): a component never uses the same stream in two episodes that follow one seeding. -/
theorem c64_episodes_distinct (s : SeedSeq) (m n : ℕ) (h : nthStream s m = nthStream s n) : m = n := by
  simp only [nthStream, iterate_next, Stream.mk.injEq, true_and, List.append_cancel_left_eq, List.cons.injEq,
    and_true] at h
  omega

/-! A concrete tree: wrapper around a system (supply, converter, motor, load), multiple reference generator with two
sub-generators, reward function, monitor. -/
example : (envSeed 42 (.cons (.wrapper ⟨.new 0, ⟨0, []⟩⟩ (.system ⟨.new 0, ⟨0, []⟩⟩
      (.cons .plain (.cons .plain (.cons (.rand ⟨.new 0, ⟨0, []⟩⟩) (.cons (.rand ⟨.new 0, ⟨0, []⟩⟩) .nil))))))
    (.cons (.multi ⟨.new 0, ⟨0, []⟩⟩ (.cons (.rand ⟨.new 0, ⟨0, []⟩⟩) (.cons (.rand ⟨.new 0, ⟨0, []⟩⟩) .nil)))
      (.cons .plain (.cons .plain .nil))))).streams
    = [⟨42, [0, 0]⟩, ⟨42, [0, 3, 0]⟩, ⟨42, [0, 4, 0]⟩, ⟨42, [1, 0]⟩, ⟨42, [1, 1, 0]⟩, ⟨42, [1, 2, 0]⟩] := by
  rfl

/-! ## C04 The environment loop -/

section loop

open GEM.Core

variable {σ A S R O K : Type*} [LE K] [One K] [DecidableLE K]

/-- What has to hold of the modules: what a reset with a seed returns, and leaves behind, does not depend on what was
before.  `Inv` singles out the states of one and the same instance (e.g. equal parameters); `Q` relates states that no
later call other than a reset can tell apart. -/
structure ForgetsOnSeededReset (C : Comps σ A S R O K) (Inv : σ → Prop) (Q : σ → σ → Prop) : Prop where
  seed : ∀ n c, Inv c → Inv (C.seed n c)
  cb : ∀ i e c, Inv c → Inv (C.onCb i e c)
  psReset : ∀ c, Inv c → Inv (C.psReset c).1
  refReset : ∀ c s, Inv c → Inv (C.refReset c s).1
  rewReset : ∀ c s r, Inv c → Inv (C.rewReset c s r)
  simulate : ∀ c a, Inv c → Inv (C.simulate c a).1
  getRef : ∀ c s, Inv c → Inv (C.getRef c s).1
  check : ∀ c s, Inv c → Inv (C.check c s).1
  reward : ∀ c s r k a d, Inv c → Inv (C.reward c s r k a d).1
  refObs : ∀ c s, Inv c → Inv (C.refObs c s).1
  qK : ∀ c c', Q c c' → C.psK c = C.psK c'
  qCb : ∀ i e c c', Q c c' → Q (C.onCb i e c) (C.onCb i e c')
  qSimulate : ∀ c c' a, Q c c' → Q (C.simulate c a).1 (C.simulate c' a).1 ∧ (C.simulate c a).2 = (C.simulate c' a).2
  qGetRef : ∀ c c' s, Q c c' → Q (C.getRef c s).1 (C.getRef c' s).1 ∧ (C.getRef c s).2 = (C.getRef c' s).2
  qCheck : ∀ c c' s, Q c c' → Q (C.check c s).1 (C.check c' s).1 ∧ (C.check c s).2 = (C.check c' s).2
  qReward : ∀ c c' s r k a d, Q c c' → Q (C.reward c s r k a d).1 (C.reward c' s r k a d).1 ∧
    (C.reward c s r k a d).2 = (C.reward c' s r k a d).2
  qRefObs : ∀ c c' s, Q c c' → Q (C.refObs c s).1 (C.refObs c' s).1 ∧ (C.refObs c s).2 = (C.refObs c' s).2
  /-- the essential condition -/
  forgets : ∀ n (e e' : Env σ A S R O K), Inv e.comp → Inv e'.comp →
    Q (e.reset C n).1.comp (e'.reset C n).1.comp ∧ (e.reset C n).2 = (e'.reset C n).2

variable {C : Comps σ A S R O K} {Inv : σ → Prop} {Q : σ → σ → Prop}

theorem inv_fire (hC : ForgetsOnSeededReset C Inv Q) (e : CbEvent A S R K) (c : σ) (h : Inv c) :
    Inv ((List.range C.nCb).foldl (fun c i => C.onCb i e c) c) := by
  generalize List.range C.nCb = l
  induction l generalizing c with
  | nil => exact h
  | cons i l ih => exact ih _ (hC.cb i e c h)

theorem inv_apply (hC : ForgetsOnSeededReset C Inv Q) (env : Env σ A S R O K) (h : Inv env.comp) (op : Op σ A)
    (hop : ∀ f, op = .setRef f ∨ op = .setReward f → ∀ c, Inv c → Inv (f c)) : Inv (apply C env op).1.comp := by
  cases op with
  | setRef f => exact hop f (Or.inl rfl) _ h
  | setReward f => exact hop f (Or.inr rfl) _ h
  | close => exact inv_fire hC _ _ h
  | reset n =>
    have h1 := hC.psReset _ (inv_fire hC .resetBegin _ (hC.seed n _ h))
    simp only [apply, Env.reset, Env.call, Call.bind]
    split
    · split
      · exact inv_fire hC _ _ (hC.rewReset _ _ _ (hC.refReset _ _ h1))
      · exact hC.refReset _ _ h1
    · exact h1
  | step a =>
    simp only [apply, Env.step]
    split
    · exact h
    · have h1 := hC.simulate _ a (inv_fire hC (.stepBegin (C.psK env.comp) a) _ h)
      simp only [Env.stepBody, Env.call, Call.bind]
      split
      · split
        · split
          · split
            · split
              · exact inv_fire hC _ _ (hC.refObs _ _ (hC.reward _ _ _ _ _ _ (hC.check _ _ (hC.getRef _ _ h1))))
              · exact hC.refObs _ _ (hC.reward _ _ _ _ _ _ (hC.check _ _ (hC.getRef _ _ h1)))
            · exact hC.reward _ _ _ _ _ _ (hC.check _ _ (hC.getRef _ _ h1))
          · exact hC.check _ _ (hC.getRef _ _ h1)
        · exact hC.getRef _ _ h1
      · exact h1

/-- Environments whose modules no later call can tell apart, with the same flag (the log is ignored). -/
def Sim (Q : σ → σ → Prop) (e e' : Env σ A S R O K) : Prop := Q e.comp e'.comp ∧ e.terminated = e'.terminated

theorem sim_bind {α β : Type*} (r r' : Call (Env σ A S R O K) α) (f f' : Env σ A S R O K → α → Call (Env σ A S R O K) β)
    (h : Sim Q r.1 r'.1 ∧ r.2 = r'.2)
    (hf : ∀ e e' a, Sim Q e e' → Sim Q (f e a).1 (f' e' a).1 ∧ (f e a).2 = (f' e' a).2) :
    Sim Q (r.bind f).1 (r'.bind f').1 ∧ (r.bind f).2 = (r'.bind f').2 := by
  obtain ⟨e, x⟩ := r
  obtain ⟨e', x'⟩ := r'
  obtain ⟨h1, h2⟩ := h
  simp only at h1 h2
  subst h2
  cases x with
  | ok a => exact hf e e' a h1
  | error er => exact ⟨h1, rfl⟩

theorem sim_fire (hC : ForgetsOnSeededReset C Inv Q) (e e' : Env σ A S R O K) (h : Sim Q e e') (ev ev' : CbEvent A S R K)
    (hev : ev = ev') : Sim Q (e.fire C ev) (e'.fire C ev') := by
  subst hev
  refine ⟨?_, h.2⟩
  simp only [Env.fire]
  have hq := h.1
  generalize List.range C.nCb = l
  generalize e.comp = c at hq
  generalize e'.comp = c' at hq
  induction l generalizing c c' with
  | nil => exact hq
  | cons i l ih => exact ih _ _ (hC.qCb i ev _ _ hq)

theorem sim_call {α : Type*} (e e' : Env σ A S R O K) (h : Sim Q e e') (r r' : σ × Except Err α)
    (hr : Q r.1 r'.1 ∧ r.2 = r'.2) (l l' : LogEntry A S R O K) :
    Sim Q (e.call r l).1 (e'.call r' l').1 ∧ (e.call r l).2 = (e'.call r' l').2 :=
  ⟨⟨hr.1, h.2⟩, hr.2⟩

/-- Two such environments behave the same. -/
theorem step_congr (hC : ForgetsOnSeededReset C Inv Q) (e e' : Env σ A S R O K) (h : Sim Q e e') (a : A) :
    (e.step C a).2 = (e'.step C a).2 ∧ Sim Q (e.step C a).1 (e'.step C a).1 := by
  have hbody : Sim Q (e.stepBody C a).1 (e'.stepBody C a).1 ∧ (e.stepBody C a).2 = (e'.stepBody C a).2 := by
    unfold Env.stepBody
    have h0 := sim_fire hC e e' h (.stepBegin (C.psK e.comp) a) (.stepBegin (C.psK e'.comp) a) (by rw [hC.qK _ _ h.1])
    refine sim_bind _ _ _ _ (sim_call _ _ h0 _ _ (hC.qSimulate _ _ _ h0.1) _ _) ?_
    intro e1 e1' s h1
    refine sim_bind _ _ _ _ (sim_call _ _ h1 _ _ (hC.qGetRef _ _ _ h1.1) _ _) ?_
    intro e2 e2' r h2
    refine sim_bind _ _ _ _ (sim_call _ _ h2 _ _ (hC.qCheck _ _ _ h2.1) _ _) ?_
    intro e3 e3' d h3
    rw [← hC.qK _ _ h3.1]
    refine sim_bind _ _ _ _ (sim_call _ _ h3 _ _ (hC.qReward _ _ _ _ _ _ _ h3.1) _ _) ?_
    intro e4 e4' w h4
    have h5 : Sim Q { e4 with terminated := decide (1 ≤ d) } { e4' with terminated := decide (1 ≤ d) } := ⟨h4.1, rfl⟩
    refine sim_bind _ _ _ _ (sim_call _ _ h5 _ _ (hC.qRefObs _ _ _ h5.1) _ _) ?_
    intro e6 e6' o h6
    have h7 := sim_fire hC e6 e6' h6 (.stepEnd (C.psK e6.comp) s r w e6.terminated)
      (.stepEnd (C.psK e6'.comp) s r w e6'.terminated) (by rw [hC.qK _ _ h6.1, h6.2])
    refine ⟨h7, ?_⟩
    simp only [Except.ok.injEq, StepResult.mk.injEq, true_and, and_true]
    exact h7.2
  unfold Env.step
  rw [← h.2]
  split
  · exact ⟨rfl, h⟩
  · refine ⟨?_, hbody.1⟩
    simp only [hbody.2]

theorem run_steps_congr (hC : ForgetsOnSeededReset C Inv Q) (acts : List A) (e e' : Env σ A S R O K) (h : Sim Q e e') :
    (run C e (acts.map Op.step)).2 = (run C e' (acts.map Op.step)).2 := by
  induction acts generalizing e e' with
  | nil => rfl
  | cons a acts ih =>
    obtain ⟨h1, h2⟩ := step_congr hC e e' h a
    simp only [List.map_cons, run, apply]
    rw [h1, ih _ _ h2]

theorem reset_flag (e : Env σ A S R O K) (n : ℕ) : (e.reset C n).1.terminated = false := by
  simp only [Env.reset, Env.call, Call.bind]
  split
  · split <;> rfl
  · rfl

/-- C04, proved part: if the modules forget their past on a seeded reset, then after `reset(seed)` everything the caller sees
until the next reset is a function of the seed and of the actions, whatever the two histories before were.
Missing: modules that do not forget (`c04_wrapper_unseeded_violated`, C19) and a later `reset()` without seed
(`c04_unseeded_reset_violated`). -/
theorem c04_reproducible_partial (hC : ForgetsOnSeededReset C Inv Q) (e e' : Env σ A S R O K)
    (h : Inv e.comp) (h' : Inv e'.comp) (seed : ℕ) (acts : List A) :
    (run C e (.reset seed :: acts.map Op.step)).2 = (run C e' (.reset seed :: acts.map Op.step)).2 := by
  obtain ⟨hq, hout⟩ := hC.forgets seed e e' h h'
  have hsim : Sim Q (e.reset C seed).1 (e'.reset C seed).1 := ⟨hq, by rw [reset_flag, reset_flag]⟩
  simp only [run]
  have hout' : (apply C e (.reset seed)).2 = (apply C e' (.reset seed)).2 := by simp only [apply, hout]
  rw [hout']
  congr 1
  exact run_steps_congr hC acts _ _ hsim

/-- C04 (histories): in particular for any two histories of the same environment. -/
theorem c04_histories_partial (hC : ForgetsOnSeededReset C Inv Q) (c : σ) (hc : Inv c) (ops ops' : List (Op σ A))
    (hops : ∀ op ∈ ops ++ ops', ∀ f, op = .setRef f ∨ op = .setReward f → ∀ c, Inv c → Inv (f c))
    (seed : ℕ) (acts : List A) :
    (run C (run C (Env.init C c) ops).1 (.reset seed :: acts.map Op.step)).2 =
    (run C (run C (Env.init C c) ops').1 (.reset seed :: acts.map Op.step)).2 := by
  have hinv : ∀ (ops : List (Op σ A)) (e : Env σ A S R O K), Inv e.comp →
      (∀ op ∈ ops, ∀ f, op = .setRef f ∨ op = .setReward f → ∀ c, Inv c → Inv (f c)) → Inv (run C e ops).1.comp := by
    intro ops
    induction ops with
    | nil => intro e he _; exact he
    | cons op ops ih =>
      intro e he ho
      exact ih _ (inv_apply hC e he op (ho op (by simp))) (fun o h => ho o (by simp [h]))
  have h0 : Inv (Env.init C c).comp := inv_fire hC _ _ hc
  exact c04_reproducible_partial hC _ _ (hinv ops _ h0 (fun o h => hops o (by simp [h])))
    (hinv ops' _ h0 (fun o h => hops o (by simp [h]))) seed acts

end loop

/-! A concrete environment: the initial state is drawn from a generator that is seeded, all draws come from it. -/

open GEM.Core in
/-- modules of the example: a random component and the position -/
def randDemo (draw : Stream → ℚ) : Core.Comps (RC × ℚ) ℚ ℚ ℚ ℚ ℚ where
  seed n _ := (RC.seed (SeedSeq.new n), 0)
  psReset c := ((c.1.next, draw c.1.next.gen), .ok (draw c.1.next.gen))
  refReset c _ := (c, .ok (0, 0))
  rewReset c _ _ := c
  psK _ := 0
  simulate c a := ((c.1, c.2 + a), .ok (c.2 + a))
  getRef c _ := (c, .ok 0)
  check c s := (c, .ok (if 1 < s then 1 else 0))
  reward c s r _ _ _ := (c, .ok (r - s))
  refObs c _ := (c, .ok 0)
  observe s := s
  nCb := 0
  onCb _ _ c := c

example (draw : Stream → ℚ) : ForgetsOnSeededReset (randDemo draw) (fun _ => True) (· = ·) := by
  constructor <;> intros <;> first | trivial | (subst_vars; exact ⟨rfl, rfl⟩)

open GEM.Core in
/-- C04 is violated by a later reset without a seed: the operating system then chooses the entropy, so that two runs with
the same seed, the same calls and modules whose every draw comes from seeded generators are different. -/
theorem c04_unseeded_reset_violated :
    ∃ (C : Core.Comps (RC × ℚ) ℚ ℚ ℚ ℚ ℚ), ForgetsOnSeededReset C (fun _ => True) (· = ·) ∧
      ∃ (c : RC × ℚ) (seed osEntropy osEntropy' : ℕ),
        ((run C (Env.init C c) [.reset seed, .reset osEntropy]).2.map Prod.snd) ≠
        ((run C (Env.init C c) [.reset seed, .reset osEntropy']).2.map Prod.snd) := by
  refine ⟨randDemo (fun st => st.entropy), ?_, (⟨.new 0, ⟨0, []⟩⟩, 0), 42, 1, 2, ?_⟩
  · constructor <;> intros <;> first | trivial | (subst_vars; exact ⟨rfl, rfl⟩)
  · simp [run, apply, Env.init, Env.reset, Env.fire, Env.call, Call.bind, randDemo, RC.seed, RC.next, SeedSeq.spawn1,
      SeedSeq.new]

end GEM.Props
