import Verif.Model.Observer
import Verif.Props.Env

/-!
# C102: `StateObserver` returns the value of the named state
-/

namespace GEM.Props

open GEM GEM.Core GEM.Refs GEM.Observe

variable {α : Type}

/-- the state vector the environment returned last -/
def latest : List (Event α) → Option (List α)
  | [] => none
  | es@(_ :: _) => match es.getLast? with | some (.reset x) => some x | some (.step x) => some x | none => none

theorem currentState_step (es : List (Event α)) (x : List α) : currentState (es ++ [.step x]) = some x := by
  simp [currentState]

theorem currentState_reset (es : List (Event α)) (x : List α) : currentState (es ++ [.reset x]) = currentState es := by
  simp [currentState]

theorem latest_concat (es : List (Event α)) (e : Event α) :
    latest (es ++ [e]) = match e with | .reset x => some x | .step x => some x := by
  cases es with
  | nil => cases e <;> rfl
  | cons a es =>
    show (match ((a :: es) ++ [e]).getLast? with | some (.reset x) => some x | some (.step x) => some x | none => none) = _
    rw [List.getLast?_append_of_ne_nil _ (by simp)]
    cases e <;> rfl

/-- C102 without state filter, after a step: the value of every state is the one of the state with this name. -/
theorem c102_partial (names : List String) (hn : names.Nodup) (filter : Option (List String)) (hf : filter = none ∨ filter = some [])
    (refs : Names) (es : List (Event α)) (x : List α) (hx : x.length = names.length) (i : ℕ) (hi : i < names.length) :
    ∃ idx v, stateFilter names filter = .ok idx ∧ x[i]? = some v ∧ latest (es ++ [.step x]) = some x ∧
      pull (fuse names idx refs) (currentState (es ++ [.step x])) names[i] = .ok (names[i], v) := by
  obtain ⟨idx, h1, h2⟩ := c05_all names hn filter hf names rfl
  refine ⟨idx, x[i], h1, by simp, latest_concat .., ?_⟩
  have hmem : names[i] ∈ fuse names idx refs := by
    simp [fuse, h2]
  have hidx : (fuse names idx refs).idxOf names[i] = i := by
    rw [fuse, h2, List.idxOf_append_of_mem (List.getElem_mem hi), List.Nodup.idxOf_getElem hn]
  simp [pull, hmem, currentState_step, hidx, hx, hi]

/-- C102 is violated by every state filter that changes the position of a state: instead of the value of the `j`-th state of the
filter, which is at another position `p` of the system, that of the `j`-th state of the system is returned. -/
theorem c102_filter_violated [Inhabited α] (names l : List String) (hl : l.Nodup) (idx : List ℕ) (hne : l ≠ [])
    (h : stateFilter names (some l) = .ok idx) (refs : Names) (es : List (Event α)) (x : List α) (hx : x.length = names.length)
    (j : ℕ) (hj : j < l.length) (hjn : j < names.length) (hp : names.idxOf l[j] ≠ j) :
    ∃ v, x[j]? = some v ∧ pull (fuse names idx refs) (currentState (es ++ [.step x])) l[j] = .ok (l[j], v) ∧
      names.idxOf l[j] < names.length ∧ ∀ w, ∃ y : List α, y.length = names.length ∧
        y[names.idxOf l[j]]? = some w ∧ pull (fuse names idx refs) (currentState (es ++ [.step y])) l[j] = .ok (l[j], v) := by
  have ht : take names idx = l := c05_names names l hne idx h
  have hmem : l[j] ∈ fuse names idx refs := by simp [fuse, ht]
  have hidx : (fuse names idx refs).idxOf l[j] = j := by
    rw [fuse, ht, List.idxOf_append_of_mem (List.getElem_mem hj), List.Nodup.idxOf_getElem hl]
  have hin : l[j] ∈ names := (c05_unknown names l).1 ⟨idx, h⟩ _ (List.getElem_mem hj)
  have hlt : names.idxOf l[j] < names.length := List.idxOf_lt_length_of_mem hin
  have hjx : j < x.length := hx ▸ hjn
  refine ⟨x[j], by simp, ?_, hlt, fun w => ⟨x.set (names.idxOf l[j]) w, by simp [hx], by simp [hx, hlt], ?_⟩⟩
  · simp [pull, hmem, currentState_step, hidx, hjx]
  · simp [pull, hmem, currentState_step, hidx, hjx]
    exact List.getElem_set_ne hp _

/-- C102 is violated by references: without a filter the value of no reference can be read, every attempt raises an
IndexError. -/
theorem c102_reference_violated (names : List String) (hn : names.Nodup) (filter : Option (List String))
    (hf : filter = none ∨ filter = some []) (refs : Names) (es : List (Event α)) (x : List α) (hx : x.length = names.length)
    (r : String) (hr : r ∈ refs.iter) (hnew : r ++ "_ref" ∉ names) :
    ∃ idx, stateFilter names filter = .ok idx ∧
      pull (fuse names idx refs) (currentState (es ++ [.step x])) (r ++ "_ref") = .error .index := by
  obtain ⟨idx, h1, h2⟩ := c05_all names hn filter hf names rfl
  refine ⟨idx, h1, ?_⟩
  have hmem : r ++ "_ref" ∈ fuse names idx refs := by
    rw [fuse, List.mem_append]
    exact Or.inr (List.mem_map.2 ⟨r, hr, rfl⟩)
  have hge : x.length ≤ (fuse names idx refs).idxOf (r ++ "_ref") := by
    rw [fuse, h2, List.idxOf_append_of_notMem hnew, hx]
    omega
  simp [pull, hmem, currentState_step, List.getElem?_eq_none hge]

/-- C102 is violated before the first step: every name raises a TypeError. -/
theorem c102_first_violated (fused : List String) (s : String) (hs : s ∈ fused) (xs : List (List α)) :
    pull fused (currentState (xs.map Event.reset)) s = .error .type := by
  have : currentState (xs.map Event.reset) = none := by
    induction xs using List.reverseRecOn with
    | nil => rfl
    | append_singleton xs x ih => rw [List.map_append, List.map_singleton, currentState_reset, ih]
  simp [pull, hs, this]

/-- C102 is violated after a reset: the values are those of the last step of the episode before. -/
theorem c102_reset_violated (fused : List String) (s : String) (es : List (Event α)) (x y : List α) :
    latest (es ++ [.step x] ++ [.reset y]) = some y ∧
    pull fused (currentState (es ++ [.step x] ++ [.reset y])) s = pull fused (some x) s := by
  rw [latest_concat, currentState_reset, currentState_step]
  exact ⟨rfl, rfl⟩

/-- A filter with torque and current: asked for the torque, the observer answers with the speed. -/
example : ∃ idx, stateFilter ["omega", "torque", "i"] (some ["torque", "i"]) = .ok idx ∧
    pull (fuse ["omega", "torque", "i"] idx (.list ["i"])) (currentState [.reset [0, 0, 0], .step [10, 20, (30 : ℕ)]]) "torque"
      = .ok ("torque", 10) ∧
    pull (fuse ["omega", "torque", "i"] idx (.list ["i"])) (currentState [.reset [0, 0, 0], .step [10, 20, (30 : ℕ)]]) "i_ref"
      = .ok ("i_ref", 30) := ⟨[1, 2], rfl, rfl, rfl⟩

/-- Without a filter it is right. -/
example : ∃ idx, stateFilter ["omega", "torque", "i"] none = .ok idx ∧
    pull (fuse ["omega", "torque", "i"] idx (.list ["i"])) (currentState [.reset [0, 0, 0], .step [10, 20, (30 : ℕ)]]) "torque"
      = .ok ("torque", 20) ∧
    pull (fuse ["omega", "torque", "i"] idx (.list ["i"])) (currentState [.reset [0, 0, 0], .step [10, 20, (30 : ℕ)]]) "i_ref"
      = .error .index := ⟨[0, 1, 2], rfl, rfl, rfl⟩

end GEM.Props
