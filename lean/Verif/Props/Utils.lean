import Verif.Model.Utils
import Mathlib.Tactic.Linarith
import Mathlib.Tactic.NormNum
import Mathlib.Tactic.Ring
import Mathlib.Algebra.Order.BigOperators.Group.List
import Mathlib.Data.List.Perm.Basic
import Mathlib.Algebra.BigOperators.Group.List.Basic
import Mathlib.Algebra.BigOperators.Ring.List
import Mathlib.Data.Rat.Cast.Order

/-!
# Properties C06–C12: constraints, constraint monitor, dictionaries
-/

set_option linter.unusedSectionVars false

namespace GEM.Props

open GEM GEM.Utils GEM.Constr

section dicts

variable {N V K : Type*} [DecidableEq N]

/-! ## Helper lemmas -/

theorem lookup_none (d : List (N × V)) (k : N) : lookup d k = none ↔ ∀ p ∈ d, p.1 ≠ k := by
  simp [lookup]

theorem lookup_some_mem {d : List (N × V)} {k : N} {v : V} (h : lookup d k = some v) : (k, v) ∈ d := by
  simp only [lookup, Option.map_eq_some_iff] at h
  obtain ⟨p, hp, rfl⟩ := h
  have h1 := List.find?_some hp
  have h2 := List.mem_of_find?_eq_some hp
  simp only [decide_eq_true_eq] at h1
  subst h1
  simpa using h2

theorem lookup_append_cons (d d' : List (N × V)) (k : N) (v : V) (h : ∀ p ∈ d', p.1 ≠ k) :
    lookup (d ++ (k, v) :: d') k = some v := by
  simp only [lookup, List.reverse_append, List.reverse_cons]
  rw [List.find?_append, List.find?_append]
  have : List.find? (fun p => decide (p.1 = k)) d'.reverse = none := by simpa using h
  simp [this]

/-! ## C11 Named state values land in their slot -/

/-- C11 (acceptance): a dictionary is accepted iff every key, lower-cased, is a state name; the result then has one entry
per state. -/
theorem c11_accepts [Zero K] (lower : N → N) (names : List N) (d : List (N × K)) :
    (∃ a, setStateArray lower names (.dict d) = .ok a ∧ a.length = names.length) ↔ ∀ p ∈ d, lower p.1 ∈ names := by
  simp only [setStateArray, stateDictToStateArray]
  constructor
  · rintro ⟨a, ha, -⟩
    split at ha
    · rename_i h
      intro p hp
      exact h (lower p.1, p.2) (List.mem_map.2 ⟨p, hp, rfl⟩)
    · simp at ha
  · intro h
    rw [if_pos]
    · exact ⟨_, rfl, by simp⟩
    · intro p hp
      obtain ⟨q, hq, rfl⟩ := List.mem_map.1 hp
      exact h q hq

/-- C11 (rejection): otherwise an AssertionError is raised. -/
theorem c11_rejects [Zero K] (lower : N → N) (names : List N) (d : List (N × K))
    (h : ∃ p ∈ d, lower p.1 ∉ names) : setStateArray lower names (.dict d) = .error .assertion := by
  obtain ⟨p, hp, hn⟩ := h
  simp only [setStateArray, stateDictToStateArray]
  rw [if_neg]
  intro hall
  exact hn (hall (lower p.1, p.2) (List.mem_map.2 ⟨p, hp, rfl⟩))

/-- C11 (slots): in the resulting array the position of every name holds the value given for that name, if keys that
collide after lower-casing are absent. -/
theorem c11_slot [Zero K] (lower : N → N) (names : List N) (d : List (N × K)) (a : List K)
    (ha : setStateArray lower names (.dict d) = .ok a)
    (hinj : ∀ p ∈ d, ∀ q ∈ d, lower p.1 = lower q.1 → p = q)
    (i : ℕ) (hi : i < names.length) (k : N) (v : K) (hk : (k, v) ∈ d) (hlow : lower k = names[i]) :
    a[i]? = some v := by
  simp only [setStateArray, stateDictToStateArray] at ha
  split at ha
  · simp only [Except.ok.injEq] at ha
    subst ha
    have : lookup (d.map (fun p => (lower p.1, p.2))) names[i] = some v := by
      cases h : lookup (d.map (fun p => (lower p.1, p.2))) names[i] with
      | none => exact absurd hlow ((lookup_none _ _).1 h (lower k, v) (List.mem_map.2 ⟨_, hk, rfl⟩))
      | some w =>
        have := lookup_some_mem h
        obtain ⟨q, hq, hqe⟩ := List.mem_map.1 this
        simp only [Prod.mk.injEq] at hqe
        have := hinj q hq (k, v) hk (by rw [hqe.1, hlow])
        subst this
        rw [← hqe.2]
    simp [hi, this]
  · simp at ha

/-- C11 (unnamed): positions that no key names are 0. -/
theorem c11_unnamed [Zero K] (lower : N → N) (names : List N) (d : List (N × K)) (a : List K)
    (ha : setStateArray lower names (.dict d) = .ok a)
    (i : ℕ) (hi : i < names.length) (hk : ∀ p ∈ d, lower p.1 ≠ names[i]) :
    a[i]? = some 0 := by
  simp only [setStateArray, stateDictToStateArray] at ha
  split at ha
  · simp only [Except.ok.injEq] at ha
    subst ha
    have : lookup (d.map (fun p => (lower p.1, p.2))) names[i] = none := by
      rw [lookup_none]
      intro p hp
      obtain ⟨q, hq, rfl⟩ := List.mem_map.1 hp
      exact hk q hq
    simp [hi, this]
  · simp at ha

/-- C11 (collision): if several keys agree after lower-casing, the last one in insertion order wins. -/
theorem c11_last_wins [Zero K] (lower : N → N) (names : List N) (d d' : List (N × K)) (k : N) (v : K) (a : List K)
    (ha : setStateArray lower names (.dict (d ++ (k, v) :: d')) = .ok a)
    (hlast : ∀ p ∈ d', lower p.1 ≠ lower k) (i : ℕ) (hi : i < names.length) (hlow : lower k = names[i]) :
    a[i]? = some v := by
  simp only [setStateArray, stateDictToStateArray] at ha
  split at ha
  · simp only [Except.ok.injEq] at ha
    subst ha
    have : lookup ((d ++ (k, v) :: d').map (fun p => (lower p.1, p.2))) names[i] = some v := by
      simp only [List.map_append, List.map_cons, ← hlow]
      apply lookup_append_cons
      intro p hp
      obtain ⟨q, hq, rfl⟩ := List.mem_map.1 hp
      exact hlast q hq
    generalize (d ++ (k, v) :: d').map (fun p => (lower p.1, p.2)) = e at this
    simp [hi, this]
  · simp at ha

/-- C11 (arrays, scalars, anything else). -/
theorem c11_other_inputs [Zero K] (lower : N → N) (names : List N) (b : List K) (x : K) :
    (setStateArray lower names (.ndarray b) = if b.length = names.length then .ok b else .error .assertion) ∧
    (setStateArray lower names (.list b) = if b.length = names.length then .ok b else .error .assertion) ∧
    (∃ a, setStateArray lower names (.scalar x) = .ok a ∧ a.length = names.length ∧ ∀ y ∈ a, y = x) ∧
    (∀ a, setStateArray (K := K) lower names .other ≠ .ok a) := by
  refine ⟨rfl, rfl, ⟨_, rfl, by simp, by simp⟩, by simp [setStateArray]⟩

example : setStateArray (K := ℚ) (fun s => if s = "I" then "i" else s) ["omega", "torque", "i"]
    (.dict [("I", 3), ("omega", 2)]) = .ok [2, 0, 3] := by
  simp [setStateArray, stateDictToStateArray, lookup]

/-! ## C12 update_parameter_dict -/

theorem dictSet_keys (d : List (N × V)) (k : N) (v : V) (h : k ∈ d.map Prod.fst) :
    (dictSet d k v).map Prod.fst = d.map Prod.fst := by
  simp only [dictSet, if_pos h, List.map_map]
  apply List.map_congr_left
  intro p _
  by_cases hp : p.1 = k <;> simp [hp]

theorem dictUpdate_keys (d u : List (N × V)) (h : ∀ p ∈ u, p.1 ∈ d.map Prod.fst) :
    (dictUpdate d u).map Prod.fst = d.map Prod.fst := by
  induction u generalizing d with
  | nil => rfl
  | cons p u ih =>
    have hp := h p (by simp)
    have hk := dictSet_keys d p.1 p.2 hp
    simp only [dictUpdate, List.foldl_cons]
    have := ih (dictSet d p.1 p.2) (by intro q hq; rw [hk]; exact h q (by simp [hq]))
    simp only [dictUpdate] at this
    rw [this, hk]

/-- Reading a dictionary: the value of the (unique) item with that key. -/
def dictHas (d : List (N × V)) (k : N) (v : V) : Prop := (k, v) ∈ d

theorem dictSet_mem (d : List (N × V)) (k : N) (v : V) (h : k ∈ d.map Prod.fst) (k' : N) (v' : V) :
    (k', v') ∈ dictSet d k v ↔ (k' = k ∧ v' = v) ∨ (k' ≠ k ∧ (k', v') ∈ d) := by
  unfold dictSet
  rw [if_pos h, List.mem_map]
  constructor
  · rintro ⟨p, hp, he⟩
    by_cases hpk : p.1 = k
    · rw [if_pos hpk] at he
      simp only [Prod.mk.injEq] at he
      left; exact ⟨he.1.symm, he.2.symm⟩
    · rw [if_neg hpk] at he
      subst he
      right; exact ⟨hpk, hp⟩
  · rintro (⟨rfl, rfl⟩ | ⟨hne, hm⟩)
    · obtain ⟨p, hp, rfl⟩ := List.mem_map.1 h
      exact ⟨p, hp, by simp⟩
    · exact ⟨(k', v'), hm, by simp [hne]⟩

theorem dictUpdate_mem (d u : List (N × V)) (h : ∀ p ∈ u, p.1 ∈ d.map Prod.fst) (hu : (u.map Prod.fst).Nodup)
    (k : N) (v : V) :
    (k, v) ∈ dictUpdate d u ↔ (k, v) ∈ u ∨ (k ∉ u.map Prod.fst ∧ (k, v) ∈ d) := by
  induction u generalizing d with
  | nil => simp [dictUpdate]
  | cons p u ih =>
    have hp := h p (by simp)
    have hk := dictSet_keys d p.1 p.2 hp
    simp only [List.map_cons, List.nodup_cons] at hu
    simp only [dictUpdate, List.foldl_cons]
    have := ih (dictSet d p.1 p.2) (by intro q hq; rw [hk]; exact h q (by simp [hq])) hu.2
    simp only [dictUpdate] at this
    rw [this, dictSet_mem d p.1 p.2 hp]
    obtain ⟨pk, pv⟩ := p
    simp only [List.mem_cons, Prod.mk.injEq, List.map_cons, not_or]
    constructor
    · rintro (h1 | ⟨h1, ⟨rfl, rfl⟩ | ⟨h2, h3⟩⟩)
      · exact Or.inl (Or.inr h1)
      · exact Or.inl (Or.inl ⟨rfl, rfl⟩)
      · exact Or.inr ⟨⟨h2, h1⟩, h3⟩
    · rintro ((⟨rfl, rfl⟩ | h1) | ⟨⟨h2, h1⟩, h3⟩)
      · exact Or.inr ⟨hu.1, Or.inl ⟨rfl, rfl⟩⟩
      · exact Or.inl h1
      · exact Or.inr ⟨h1, Or.inr ⟨h2, h3⟩⟩

/-- C12: for every store of dictionaries and every two of them, `update_parameter_dict(default, new)` succeeds iff all
keys of `new` are keys of `default`; the result is a fresh dictionary with exactly the keys of `default` (same order),
the values of `new` where given and of `default` elsewhere; every dictionary that existed before is unchanged. -/
theorem c12_update (st : Store N V) (src upd : ℕ) (d u : List (N × V)) (hs : st[src]? = some d) (hu : st[upd]? = some u)
    (hnd : (u.map Prod.fst).Nodup) :
    ((∀ k ∈ u.map Prod.fst, k ∈ d.map Prod.fst) →
      ∃ st' r new, updateParameterDict st src upd true = .ok (st', r) ∧
        r ≥ st.length ∧ st'[r]? = some new ∧
        new.map Prod.fst = d.map Prod.fst ∧
        (∀ k v, dictHas new k v ↔ dictHas u k v ∨ (k ∉ u.map Prod.fst ∧ dictHas d k v)) ∧
        (∀ i, i < st.length → st'[i]? = st[i]?)) ∧
    ((∃ k ∈ u.map Prod.fst, k ∉ d.map Prod.fst) → updateParameterDict st src upd true = .error .key) := by
  have hiff : (∀ p ∈ u, p.1 ∈ d.map Prod.fst) ↔ ∀ k ∈ u.map Prod.fst, k ∈ d.map Prod.fst := by simp
  constructor
  · intro h
    refine ⟨st ++ [dictUpdate d u], st.length, dictUpdate d u, ?_, le_refl _, ?_, ?_, ?_, ?_⟩
    · simp only [updateParameterDict, hs, hu]
      rw [if_pos (hiff.2 h)]; rfl
    · simp
    · exact dictUpdate_keys d u (hiff.2 h)
    · intro k v
      exact dictUpdate_mem d u (hiff.2 h) hnd k v
    · intro i hi
      simp [List.getElem?_append_left hi]
  · rintro ⟨k, hk, hn⟩
    simp only [updateParameterDict, hs, hu]
    rw [if_neg]
    intro hall
    exact hn (hiff.1 hall k hk)

/-- C12 (`copy=False`): then the default dictionary itself is updated and returned, and nothing else changes. -/
theorem c12_no_copy (st : Store N V) (src upd : ℕ) (d u : List (N × V)) (hs : st[src]? = some d) (hu : st[upd]? = some u)
    (h : ∀ k ∈ u.map Prod.fst, k ∈ d.map Prod.fst) :
    ∃ st', updateParameterDict st src upd false = .ok (st', src) ∧ ∀ i, i ≠ src → st'[i]? = st[i]? := by
  refine ⟨st.set src (dictUpdate d u), ?_, ?_⟩
  · simp only [updateParameterDict, hs, hu]
    rw [if_pos (by simpa using h)]; rfl
  · intro i hi
    exact List.getElem?_set_ne (Ne.symm hi)

example : updateParameterDict [[("r_a", 1), ("l_a", 2)], [("l_a", 5)]] 0 1 true
    = .ok ([[("r_a", 1), ("l_a", 2)], [("l_a", 5)], [("r_a", 1), ("l_a", 5)]], 2) := by
  simp [updateParameterDict, dictUpdate, dictSet]

end dicts

section constraints

variable {N K : Type*} [DecidableEq N] [Field K] [LinearOrder K] [IsStrictOrderedRing K]

/-! ## C08 Limit constraint -/

theorem limitMask_ok (lower : N → N) (allStates : N) (names obs : List N) (mask : List Bool)
    (h : limitMask (K := K) lower allStates names (some obs) = .ok mask) :
    mask.length = names.length ∧
    ∀ i (hi : i < names.length), mask[i]? = some (decide (∃ n ∈ (if allStates ∈ obs then names else obs), lower n = names[i])) := by
  simp only [limitMask] at h
  set o := if allStates ∈ obs then names else obs
  cases ha : setStateArray lower names (.dict (o.map (fun n => (n, (1 : K))))) with
  | error e => rw [ha] at h; simp at h
  | ok a =>
    rw [ha] at h
    simp only [Except.ok.injEq] at h
    subst h
    obtain ⟨a', ha', hlen⟩ := (c11_accepts (K := K) lower names (o.map (fun n => (n, (1 : K))))).2 (by
      by_contra hc
      push Not at hc
      have := c11_rejects (K := K) lower names _ hc
      rw [this] at ha; simp at ha)
    rw [ha] at ha'
    simp only [Except.ok.injEq] at ha'
    subst ha'
    refine ⟨by simp [hlen], ?_⟩
    intro i hi
    by_cases hex : ∃ n ∈ o, lower n = names[i]
    · simp only [setStateArray, stateDictToStateArray] at ha
      split at ha
      · simp only [Except.ok.injEq] at ha
        subst ha
        obtain ⟨n, hn, hl⟩ := hex
        have : lookup ((o.map (fun n => (n, (1 : K)))).map (fun p => (lower p.1, p.2))) names[i] = some 1 := by
          cases h : lookup ((o.map (fun n => (n, (1 : K)))).map (fun p => (lower p.1, p.2))) names[i] with
          | none =>
            exact absurd hl ((lookup_none _ _).1 h (lower n, 1) (by
              simp only [List.map_map, List.mem_map]; exact ⟨n, hn, rfl⟩))
          | some w =>
            have := lookup_some_mem h
            simp only [List.map_map, List.mem_map, Function.comp, Prod.mk.injEq] at this
            obtain ⟨_, _, _, rfl⟩ := this
            rfl
        have hd : decide (∃ n ∈ o, lower n = names[i]) = true := by simpa using ⟨n, hn, hl⟩
        rw [hd]
        generalize (o.map (fun n => (n, (1 : K)))).map (fun p => (lower p.1, p.2)) = e at this
        simp [hi, this]
      · simp at ha
    · have h0 := c11_unnamed (K := K) lower names _ a ha i hi (by
        intro p hp
        obtain ⟨n, hn, rfl⟩ := List.mem_map.1 hp
        intro hl
        exact hex ⟨n, hn, hl⟩)
      have hd : decide (∃ n ∈ o, lower n = names[i]) = false := by simpa using hex
      rw [hd]
      simp [List.getElem?_map, h0]

/-- C08: for every list of observed names (state names are lower case) and every state, the constraint returns 1 exactly if
the absolute value of some observed state exceeds 1, and 0 otherwise; unobserved states have no influence. -/
theorem c08_exact (lower : N → N) (allStates : N) (names obs : List N) (mask : List Bool)
    (hlow : ∀ n ∈ names, lower n = n)
    (h : limitMask (K := K) lower allStates names (some obs) = .ok mask)
    (state : List K) (hs : state.length = names.length) :
    ∃ v, limitCall mask state = .ok v ∧ (v = 0 ∨ v = 1) ∧
      (v = 1 ↔ ∃ i, ∃ hi : i < names.length, ∃ x, state[i]? = some x ∧ 1 < |x| ∧
        (allStates ∈ obs ∨ ∃ n ∈ obs, lower n = names[i])) := by
  obtain ⟨hlen, hm⟩ := limitMask_ok (K := K) lower allStates names obs mask h
  have hobs : ∀ i (hi : i < names.length),
      (∃ n ∈ (if allStates ∈ obs then names else obs), lower n = names[i]) ↔
      (allStates ∈ obs ∨ ∃ n ∈ obs, lower n = names[i]) := by
    intro i hi
    by_cases ha : allStates ∈ obs
    · simp only [ha, true_or, iff_true]
      exact ⟨names[i], List.getElem_mem hi, hlow _ (List.getElem_mem hi)⟩
    · simp [ha]
  refine ⟨_, by rw [limitCall, if_pos (by rw [hs, hlen])], ?_, ?_⟩
  · by_cases hc : (((state.zip mask).filter (fun p => p.2)).map Prod.fst).any (fun x => decide (1 < |x|)) = true
    · right; simp only [hc]; rfl
    · left; simp only [hc]; rfl
  · have key : (((state.zip mask).filter (fun p => p.2)).map Prod.fst).any (fun x => decide (1 < |x|)) = true ↔
        ∃ i, ∃ hi : i < names.length, ∃ x, state[i]? = some x ∧ 1 < |x| ∧
        (allStates ∈ obs ∨ ∃ n ∈ obs, lower n = names[i]) := by
      simp only [List.any_eq_true, List.mem_map, List.mem_filter, decide_eq_true_eq]
      constructor
      · rintro ⟨x, ⟨⟨y, b⟩, ⟨hmem, hb⟩, rfl⟩, hx⟩
        simp only at hb hx
        subst hb
        obtain ⟨i, hi⟩ := List.mem_iff_getElem?.1 hmem
        rw [List.getElem?_zip_eq_some] at hi
        have hin : i < names.length := by
          rw [← hs]; exact (List.getElem?_eq_some_iff.1 hi.1).1
        refine ⟨i, hin, y, hi.1, hx, ?_⟩
        have := hm i hin
        simp only at hi
        rw [hi.2] at this
        simp only [Option.some.injEq] at this
        exact (hobs i hin).1 (by simpa using this.symm)
      · rintro ⟨i, hi, x, hx, h1, ho⟩
        refine ⟨x, ⟨(x, true), ⟨?_, rfl⟩, rfl⟩, h1⟩
        rw [List.mem_iff_getElem?]
        refine ⟨i, ?_⟩
        rw [List.getElem?_zip_eq_some]
        refine ⟨hx, ?_⟩
        rw [hm i hi]
        simp only [Option.some.injEq, decide_eq_true_eq]
        exact (hobs i hi).2 ho
    rw [← key]
    by_cases hc : (((state.zip mask).filter (fun p => p.2)).map Prod.fst).any (fun x => decide (1 < |x|)) = true
    · simp only [hc]; simp
    · simp only [hc]; simp

/-- C08 (rejection): an unknown state name makes the construction fail, unless all states are observed anyway. -/
theorem c08_unknown (lower : N → N) (allStates : N) (names obs : List N) (hall : allStates ∉ obs)
    (h : ∃ n ∈ obs, lower n ∉ names) :
    limitMask (K := K) lower allStates names (some obs) = .error .assertion := by
  obtain ⟨n, hn, hl⟩ := h
  simp only [limitMask, if_neg hall]
  rw [c11_rejects (K := K) lower names _ ⟨(n, 1), List.mem_map.2 ⟨n, hn, rfl⟩, hl⟩]

example : ∃ mask, limitMask (K := ℚ) id "all_states" ["omega", "torque", "i"] (some ["i"]) = .ok mask ∧
    limitCall mask [3, 0, 1] = .ok (0 : ℚ) ∧ limitCall mask [0, 0, -2] = .ok (1 : ℚ) := by
  refine ⟨[false, false, true], ?_, ?_, ?_⟩
  · simp [limitMask, setStateArray, stateDictToStateArray, lookup]
  · norm_num [limitCall]
  · norm_num [limitCall]

/-! ## C09 Squared constraint -/

/-- C09: whatever the limits, with observed states that are all normalised (`high = 1`) or all given in physical units
(`high = limit`), the constraint returns 1 exactly if the sum of squares of the observed states relative to their limits
exceeds 1, and 0 otherwise. -/
theorem c09_exact (names : List N) (high limits : List K) (states : List N) (m : List ℕ × List K × Bool)
    (h : squaredModules names high limits states = .ok m) (normalised : Bool)
    (hh : ∀ s ∈ states, high.getD (names.idxOf s) 0 = if normalised then 1 else limits.getD (names.idxOf s) 0)
    (state : List K) :
    (squaredCall m state = 0 ∨ squaredCall m state = 1) ∧
    (squaredCall m state = 1 ↔
      1 < (states.map (fun s => (state.getD (names.idxOf s) 0 /
        (if normalised then 1 else limits.getD (names.idxOf s) 0)) ^ 2)).sum) := by
  simp only [squaredModules] at h
  split at h
  · simp only [Except.ok.injEq] at h
    subst h
    have hsum : ((if (!decide ((states.map names.idxOf).map (fun i => high.getD i 0) =
          (states.map names.idxOf).map (fun i => limits.getD i 0))) = true then
          (states.map names.idxOf).map (fun i => state.getD i 0)
        else List.zipWith (· / ·) ((states.map names.idxOf).map (fun i => state.getD i 0))
          ((states.map names.idxOf).map (fun i => limits.getD i 0))).map (· ^ 2))
        = states.map (fun s => (state.getD (names.idxOf s) 0 /
          (if normalised then 1 else limits.getD (names.idxOf s) 0)) ^ 2) := by
      by_cases he : (states.map names.idxOf).map (fun i => high.getD i 0) =
          (states.map names.idxOf).map (fun i => limits.getD i 0)
      · rw [if_neg (by simpa using he)]
        simp only [List.map_map] at he
        rw [List.map_inj_left] at he
        simp only [List.zipWith_map, List.zipWith_self, List.map_map]
        apply List.map_congr_left
        intro s hs
        have h1 := he s hs
        have h2 := hh s hs
        simp only [Function.comp] at h1 ⊢
        rw [← h1, h2]
        cases normalised <;> simp
      · rw [if_pos (by simpa using he)]
        cases normalised with
        | true =>
          simp only [List.map_map]
          apply List.map_congr_left
          intro s _
          simp
        | false =>
          exfalso
          apply he
          simp only [List.map_map]
          apply List.map_congr_left
          intro s hs
          simpa using hh s hs
    simp only [squaredCall]
    rw [hsum]
    by_cases hc : 1 < (states.map (fun s => (state.getD (names.idxOf s) 0 /
        (if normalised then 1 else limits.getD (names.idxOf s) 0)) ^ 2)).sum
    · rw [if_pos hc]; exact ⟨Or.inr rfl, fun _ => hc, fun _ => rfl⟩
    · rw [if_neg hc]; exact ⟨Or.inl rfl, fun h => absurd h zero_ne_one, fun h => absurd h hc⟩
  · simp at h

/-- C09 (rejection): an unknown state name raises `KeyError` at construction. -/
theorem c09_unknown (names : List N) (high limits : List K) (states : List N) (h : ∃ s ∈ states, s ∉ names) :
    squaredModules names high limits states = .error .key := by
  obtain ⟨s, hs, hn⟩ := h
  simp only [squaredModules]
  rw [if_neg]
  intro hall; exact hn (hall s hs)

example : ∃ m, squaredModules ["i_d", "i_q", "u"] [5, 10, 7] [5, 10, (7 : ℚ)] ["i_q", "i_d"] = .ok m ∧
    squaredCall m [3, 8, 100] = 0 ∧ squaredCall m [4, 8, 0] = 1 := by
  refine ⟨([1, 0], [10, 5], false), ?_, ?_, ?_⟩
  · simp [squaredModules, List.idxOf, List.findIdx, List.findIdx.go]
  · norm_num [squaredCall]
  · norm_num [squaredCall]

/-! ## C06 Merged violation with 'max' -/

theorem foldl_max_spec (l : List K) (x : K) :
    (∀ y ∈ x :: l, y ≤ l.foldl max x) ∧ l.foldl max x ∈ x :: l := by
  induction l generalizing x with
  | nil => simp
  | cons z l ih =>
    simp only [List.foldl_cons]
    obtain ⟨h1, h2⟩ := ih (max x z)
    constructor
    · intro y hy
      have hm : max x z ≤ l.foldl max (max x z) := h1 _ (by simp)
      rcases List.mem_cons.1 hy with rfl | hy
      · exact le_trans (le_max_left _ _) hm
      · rcases List.mem_cons.1 hy with rfl | hy
        · exact le_trans (le_max_right _ _) hm
        · exact h1 y (by simp [hy])
    · rcases List.mem_cons.1 h2 with h | h
      · rw [h]
        rcases max_choice x z with h | h <;> simp [h]
      · simp [h]

/-- Specification of a merged maximum: an upper bound of all degrees that is attained, and 0 without constraints. -/
def IsMaxDegree (degrees : List K) (v : K) : Prop :=
  (degrees = [] ∧ v = 0) ∨ (v ∈ degrees ∧ ∀ d ∈ degrees, d ≤ v)

/-- C06: the monitor with 'max' returns the maximum of the degrees of all constraints, 0 without constraints. -/
theorem c06_max {S : Type*} (cs : List (S → K)) (s : S) :
    ∃ v, (Monitor.mk cs .max).check s = .ok v ∧ IsMaxDegree (cs.map (fun c => c s)) v := by
  cases cs with
  | nil => exact ⟨0, rfl, Or.inl ⟨rfl, rfl⟩⟩
  | cons c cs =>
    obtain ⟨h1, h2⟩ := foldl_max_spec (cs.map (fun c => c s)) (c s)
    exact ⟨_, rfl, Or.inr ⟨by simpa using h2, by simpa using h1⟩⟩

/-- C06 (consequences): with degrees in [0,1] the merged degree is in [0,1], it is 0 iff no constraint is violated and
reaches 1 iff some constraint reaches 1. -/
theorem c06_range {S : Type*} (cs : List (S → K)) (s : S) (h : ∀ c ∈ cs, 0 ≤ c s ∧ c s ≤ 1) :
    ∃ v, (Monitor.mk cs .max).check s = .ok v ∧ 0 ≤ v ∧ v ≤ 1 ∧ (v = 0 ↔ ∀ c ∈ cs, c s = 0) ∧
      (1 ≤ v ↔ ∃ c ∈ cs, 1 ≤ c s) := by
  obtain ⟨v, hv, hm⟩ := c06_max cs s
  refine ⟨v, hv, ?_⟩
  rcases hm with ⟨he, rfl⟩ | ⟨hmem, hle⟩
  · have : cs = [] := by simpa using he
    subst this
    simp
  · obtain ⟨c, hc, rfl⟩ := List.mem_map.1 hmem
    have hle' : ∀ c' ∈ cs, c' s ≤ c s := fun c' hc' => hle _ (List.mem_map.2 ⟨c', hc', rfl⟩)
    refine ⟨(h c hc).1, (h c hc).2, ⟨?_, fun hz => hz c hc⟩, ⟨fun h1 => ⟨c, hc, h1⟩, ?_⟩⟩
    · intro h0 c' hc'
      exact le_antisymm (h0 ▸ hle' c' hc') (h c' hc').1
    · rintro ⟨c', hc', h1⟩
      exact le_trans h1 (hle' c' hc')

/-- C06 (order): the merged degree does not depend on the order of the constraints. -/
theorem c06_perm {S : Type*} (cs cs' : List (S → K)) (hp : cs.Perm cs') (s : S) :
    (Monitor.mk cs .max).check s = (Monitor.mk cs' .max).check s := by
  obtain ⟨v, hv, hm⟩ := c06_max cs s
  obtain ⟨v', hv', hm'⟩ := c06_max cs' s
  rw [hv, hv']
  have hperm := hp.map (fun c => c s)
  congr 1
  rcases hm with ⟨he, rfl⟩ | ⟨hmem, hle⟩
  · rw [he] at hperm
    have := hperm.symm.eq_nil
    rcases hm' with ⟨_, rfl⟩ | ⟨hmem', _⟩
    · rfl
    · rw [this] at hmem'; simp at hmem'
  · rcases hm' with ⟨he', rfl⟩ | ⟨hmem', hle'⟩
    · rw [he'] at hperm
      rw [hperm.eq_nil] at hmem; simp at hmem
    · exact le_antisymm (hle' v (hperm.mem_iff.1 hmem)) (hle v' (hperm.mem_iff.2 hmem'))

example : (Monitor.mk [fun x : ℚ => x, fun x => 1 - x] .max).check (1 / 4) = .ok (3 / 4) := by
  norm_num [Monitor.check, maxMerge]

/-! ## C07 Merged violation with 'product' -/

/-- C07 is violated on every input: as soon as there is a constraint, the check raises a TypeError. -/
theorem c07_product_violated {S : Type*} (c : S → K) (cs : List (S → K)) (s : S) :
    (Monitor.mk (c :: cs) .product).check s = .error .type := rfl

theorem mapM_oneMinus (l : List K) : (l.map PyVal.num).mapM (oneMinus (K := K)) = .ok (l.map (fun v => 1 - v)) := by
  induction l with
  | nil => rfl
  | cons a l ih =>
    simp only [List.map_cons, List.mapM_cons, oneMinus, ih, bind, Except.bind, pure, Except.pure]

theorem prod_bounds (l : List K) (h : ∀ v ∈ l, 0 ≤ v ∧ v ≤ 1) :
    0 ≤ (l.map (fun v => 1 - v)).prod ∧ (l.map (fun v => 1 - v)).prod ≤ 1 ∧
    (∀ v ∈ l, (l.map (fun v => 1 - v)).prod ≤ 1 - v) := by
  induction l with
  | nil => simp
  | cons a l ih =>
    obtain ⟨h1, h2, h3⟩ := ih (fun v hv => h v (by simp [hv]))
    obtain ⟨ha0, ha1⟩ := h a (by simp)
    simp only [List.map_cons, List.prod_cons]
    have hp : 0 ≤ 1 - a := by linarith
    refine ⟨mul_nonneg hp h1, ?_, ?_⟩
    · calc (1 - a) * (l.map (fun v => 1 - v)).prod ≤ 1 * 1 :=
          mul_le_mul (by linarith) h2 h1 (by norm_num)
        _ = 1 := by norm_num
    · intro v hv
      rcases List.mem_cons.1 hv with rfl | hv
      · exact mul_le_of_le_one_right hp h2
      · exact le_trans (mul_le_of_le_one_left h1 (by linarith)) (h3 v hv)

/-- C07, proved part: the merge function itself, if it were called with the degrees as separate arguments, returns a
degree in [0,1], at least every single degree, which reaches 1 iff some degree does.
Missing: the monitor never calls it that way (`c07_product_violated`). -/
theorem c07_merge_partial (l : List K) (h : ∀ v ∈ l, 0 ≤ v ∧ v ≤ 1) :
    ∃ v, productMerge (l.map PyVal.num) = .ok v ∧ 0 ≤ v ∧ v ≤ 1 ∧ (∀ d ∈ l, d ≤ v) ∧ (1 ≤ v ↔ ∃ d ∈ l, 1 ≤ d) := by
  obtain ⟨h1, h2, h3⟩ := prod_bounds l h
  refine ⟨1 - (l.map (fun v => 1 - v)).prod, by rw [productMerge, mapM_oneMinus], by linarith, by linarith, ?_, ?_⟩
  · intro d hd
    have := h3 d hd
    linarith
  · constructor
    · intro hv
      have h0 : (l.map (fun v => 1 - v)).prod = 0 := le_antisymm (by linarith) h1
      rw [List.prod_eq_zero_iff] at h0
      obtain ⟨d, hd, he⟩ := List.mem_map.1 h0
      exact ⟨d, hd, by linarith⟩
    · rintro ⟨d, hd, h1d⟩
      have := h3 d hd
      linarith

/-! ## C10 Every constraint passed to the environment counts -/

/-- Degree that an element of the `constraints` argument stands for. -/
def argDegree (lower : N → N) (allStates : N) (names : List N) (state : List K) : Arg N K → K
  | .constr f => f state
  | .callable f => f state
  | .name n => if ∃ i, ∃ hi : i < names.length, ∃ x, state[i]? = some x ∧ 1 < |x| ∧
      (n = allStates ∨ lower n = names[i]) then 1 else 0

/-- C10 is violated: a plain callable (documented as admissible) is ignored, whatever it returns. -/
theorem c10_callable_violated (lower : N → N) (allStates : N) (names : List N) (state : List K) :
    ∃ (args : List (Arg N K)) (m : Monitor (List K) K) (v : K),
      envMonitor lower allStates names args = .ok m ∧ m.check state = .ok v ∧
      ∃ a ∈ args, argDegree lower allStates names state a = 1 ∧ v = 0 := by
  refine ⟨[.callable (fun _ => 1)], ⟨[], .max⟩, 0, ?_, rfl, .callable (fun _ => 1), by simp, rfl, rfl⟩
  simp [envMonitor, limitArgs, additionalArgs]

/-- C10, proved part: if no plain callables are passed, every element takes part: the environment's degree is at least the
degree of every element and equal to the degree of some element (0 without elements).  Missing: plain callables (`c10_callable_violated`). -/
theorem c10_counts_partial (lower : N → N) (allStates : N) (names : List N) (hlow : ∀ n ∈ names, lower n = n)
    (args : List (Arg N K)) (hc : ∀ f, Arg.callable f ∉ args)
    (m : Monitor (List K) K) (hm : envMonitor lower allStates names args = .ok m) (state : List K)
    (hs : state.length = names.length) :
    ∃ v, m.check state = .ok v ∧ (∀ a ∈ args, argDegree lower allStates names state a ≤ v) ∧
      (args = [] ∧ v = 0 ∨ ∃ a ∈ args, argDegree lower allStates names state a = v) := by
  have name01 : ∀ n, argDegree lower allStates names state (.name n) = 0 ∨
      argDegree lower allStates names state (.name n) = (1 : K) := by
    intro n; simp only [argDegree]; split <;> simp
  simp only [envMonitor] at hm
  set limit := limitArgs args with hlimit
  set additional := additionalArgs args with hadd
  have memAdd : ∀ f, f ∈ additional ↔ Arg.constr f ∈ args := by
    intro f
    rw [hadd, additionalArgs, List.mem_filterMap]
    constructor
    · rintro ⟨a, ha, he⟩
      cases a with
      | constr g => simp only [Option.some.injEq] at he; subst he; exact ha
      | name n => simp at he
      | callable g => simp at he
    · intro h; exact ⟨_, h, rfl⟩
  have memLim : ∀ n, n ∈ limit ↔ Arg.name n ∈ args := by
    intro n
    rw [hlimit, limitArgs, List.mem_filterMap]
    constructor
    · rintro ⟨a, ha, he⟩
      cases a with
      | constr g => simp at he
      | name n => simp only [Option.some.injEq] at he; subst he; exact ha
      | callable g => simp at he
    · intro h; exact ⟨_, h, rfl⟩
  by_cases hl : limit = []
  · rw [if_pos hl] at hm
    simp only [Except.ok.injEq] at hm
    subst hm
    obtain ⟨v, hv, hmax⟩ := c06_max additional state
    refine ⟨v, hv, ?_, ?_⟩
    · intro a ha
      cases a with
      | callable f => exact absurd ha (hc f)
      | name n => have := (memLim n).2 ha; rw [hl] at this; simp at this
      | constr f =>
        rcases hmax with ⟨he, _⟩ | ⟨_, hle⟩
        · have : additional = [] := by simpa using he
          have h2 := (memAdd f).2 ha
          rw [this] at h2; simp at h2
        · exact hle _ (List.mem_map.2 ⟨f, (memAdd f).2 ha, rfl⟩)
    · rcases hmax with ⟨he, rfl⟩ | ⟨hmem, _⟩
      · cases args with
        | nil => left; exact ⟨rfl, rfl⟩
        | cons a args =>
          exfalso
          have he' : additional = [] := by simpa using he
          cases a with
          | callable f => exact hc f (by simp)
          | name n => have := (memLim n).2 (by simp); rw [hl] at this; simp at this
          | constr f => have := (memAdd f).2 (by simp); rw [he'] at this; simp at this
      · right
        obtain ⟨f, hf, rfl⟩ := List.mem_map.1 hmem
        exact ⟨.constr f, (memAdd f).1 hf, rfl⟩
  · rw [if_neg hl] at hm
    cases hmask : limitMask (K := K) lower allStates names (some limit) with
    | error e => rw [hmask] at hm; simp at hm
    | ok mask =>
      rw [hmask] at hm
      simp only [Except.ok.injEq] at hm
      subst hm
      obtain ⟨w, hw, hw01, hw1⟩ := c08_exact (K := K) lower allStates names limit mask hlow hmask state hs
      set lc : List K → K := fun s => match limitCall mask s with | .ok v => v | .error _ => 0 with hlc
      have hlcw : lc state = w := by simp only [hlc, hw]
      obtain ⟨v, hv, hmax⟩ := c06_max (additional ++ [lc]) state
      rcases hmax with ⟨he, _⟩ | ⟨hmem, hle⟩
      · simp at he
      have hwv : w ≤ v := by
        rw [← hlcw]
        exact hle _ (List.mem_map.2 ⟨lc, by simp, rfl⟩)
      have hname : ∀ n, Arg.name n ∈ args → argDegree lower allStates names state (.name n) ≤ w := by
        intro n ha
        rcases name01 n with h0 | h1
        · rw [h0]; rcases hw01 with h | h <;> rw [h]
          exact zero_le_one
        · rw [h1]
          have : w = 1 := by
            rw [hw1]
            have hex : ∃ i, ∃ hi : i < names.length, ∃ x, state[i]? = some x ∧ 1 < |x| ∧
                (n = allStates ∨ lower n = names[i]) := by
              by_contra hne
              simp only [argDegree, if_neg hne] at h1
              exact zero_ne_one h1
            obtain ⟨i, hi, x, hx, hx1, hn⟩ := hex
            refine ⟨i, hi, x, hx, hx1, ?_⟩
            rcases hn with rfl | hn
            · exact Or.inl ((memLim _).2 ha)
            · exact Or.inr ⟨n, (memLim _).2 ha, hn⟩
          rw [this]
      refine ⟨v, hv, ?_, Or.inr ?_⟩
      · intro a ha
        cases a with
        | callable f => exact absurd ha (hc f)
        | constr f => exact hle _ (List.mem_map.2 ⟨f, by simp [(memAdd f).2 ha], rfl⟩)
        | name n => exact le_trans (hname n ha) hwv
      · simp only [List.map_append, List.map_cons, List.map_nil, List.mem_append, List.mem_singleton] at hmem
        rcases hmem with hmem | hmem
        · obtain ⟨f, hf, rfl⟩ := List.mem_map.1 hmem
          exact ⟨.constr f, (memAdd f).1 hf, rfl⟩
        · rw [hlcw] at hmem
          subst hmem
          rcases hw01 with h0 | h1
          · obtain ⟨n, hn⟩ := List.exists_mem_of_ne_nil _ hl
            refine ⟨.name n, (memLim n).1 hn, ?_⟩
            rw [h0]
            rcases name01 n with h | h
            · exact h
            · have h2 := hname n ((memLim n).1 hn)
              rw [h, h0] at h2
              exact absurd h2 (not_le.2 zero_lt_one)
          · obtain ⟨i, hi, x, hx, hx1, hn⟩ := hw1.1 h1
            rcases hn with hn | ⟨n, hn, hln⟩
            · refine ⟨.name allStates, (memLim _).1 hn, ?_⟩
              rw [h1]
              simp only [argDegree]
              exact if_pos ⟨i, hi, x, hx, hx1, Or.inl trivial⟩
            · refine ⟨.name n, (memLim _).1 hn, ?_⟩
              rw [h1]
              simp only [argDegree]
              exact if_pos ⟨i, hi, x, hx, hx1, Or.inr hln⟩

end constraints

end GEM.Props
