import Verif.Proofs.Limits
import Verif.Model.Sharing

/-! # Helper lemmas: which dictionaries a call writes to -/

set_option linter.unusedSectionVars false

namespace GEM.Sharing

open GEM.Utils GEM.Init GEM.Limits

variable {K : Type} [Field K] [LinearOrder K]

/-- The event uses the dictionary at position `r` as initial state of a load. -/
def Touches (w : World K) (r : ℕ) : Event K → Prop
  | .dict _ => False
  | .newConst _ init => init.states.getD 0 = r
  | .newPoly _ => False
  | .reset i _ _ _ _ => ∃ o, w.loads[i]? = some o ∧ o.states = r

/-- No event of the program uses the dictionary at position `r`. -/
def Untouched (w : World K) (r : ℕ) : List (Event K) → Prop
  | [] => True
  | e :: es => ¬ Touches w r e ∧ Untouched (exec w e).1 r es

theorem exec_loads (w : World K) (e : Event K) (i : ℕ) (o : LoadObj K) (h : w.loads[i]? = some o) :
    (exec w e).1.loads[i]? = some o := by
  have hi : i < w.loads.length := (List.getElem?_eq_some_iff.1 h).1
  cases e with
  | dict d => simpa [exec] using h
  | newConst om init =>
    simp only [exec, newConst]
    split
    · exact h
    · split
      · exact h
      · simp only []
        rw [List.getElem?_append_left hi]; exact h
  | newPoly init =>
    simp only [exec, newPoly]
    rw [List.getElem?_append_left hi]; exact h
  | reset j bounds rvs pool draws =>
    simp only [exec, resetLoad]
    split
    · exact h
    · split
      · exact h
      · split
        · exact h
        · split
          · exact h
          · exact h

theorem exec_heap (w : World K) (e : Event K) (r : ℕ) (d : Dict K) (hr : w.heap[r]? = some d) (h : ¬ Touches w r e) :
    (exec w e).1.heap[r]? = some d := by
  have hi : r < w.heap.length := (List.getElem?_eq_some_iff.1 hr).1
  cases e with
  | dict d' =>
    simp only [exec]
    rw [List.getElem?_append_left hi]; exact hr
  | newConst om init =>
    simp only [Touches] at h
    simp only [exec, newConst]
    split
    · exact hr
    · split
      · exact hr
      · simp only []
        split
        · rw [List.getElem?_set_ne h]; exact hr
        · exact hr
  | newPoly init => simpa [exec, newPoly] using hr
  | reset j bounds rvs pool draws =>
    simp only [exec, resetLoad]
    split
    · exact hr
    · rename_i o ho
      have hne : o.states ≠ r := fun hc => h ⟨o, ho, hc⟩
      split
      · exact hr
      · split
        · exact hr
        · split
          · exact hr
          · simp only []
            rw [List.getElem?_set_ne hne]; exact hr

theorem run_frame (w : World K) (es : List (Event K)) (r : ℕ) (d : Dict K) (hr : w.heap[r]? = some d)
    (h : Untouched w r es) (i : ℕ) (o : LoadObj K) (ho : w.loads[i]? = some o) :
    (run w es).heap[r]? = some d ∧ (run w es).loads[i]? = some o := by
  induction es generalizing w with
  | nil => exact ⟨hr, ho⟩
  | cons e es ih => exact ih _ (exec_heap w e r d hr h.1) h.2 (exec_loads w e i o ho)

/-- Each motor has a dictionary of its own. -/
structure Separate (w : MWorld K) : Prop where
  own : ∀ (i : ℕ) (o : MotorObj K), w.motors[i]? = some o →
    o.own < w.heap.length ∧ o.states < w.heap.length ∧ o.defaults < w.heap.length
  apart : ∀ (i j : ℕ) (o p : MotorObj K), w.motors[i]? = some o → w.motors[j]? = some p →
    o.own ≠ p.states ∧ o.own ≠ p.defaults ∧ (i ≠ j → o.own ≠ p.own)

/-- The dictionaries named by the event exist and none is the private dictionary of a motor. -/
def Legal (w : MWorld K) : MEvent K → Prop
  | .new s d _ _ => s < w.heap.length ∧ d < w.heap.length ∧ ∀ (i : ℕ) (o : MotorObj K), w.motors[i]? = some o →
      o.own ≠ s ∧ o.own ≠ d
  | _ => True

theorem mexec_motors (w : MWorld K) (e : MEvent K) (i : ℕ) (o : MotorObj K) (h : w.motors[i]? = some o) :
    (mexec w e).1.motors[i]? = some o := by
  have hi : i < w.motors.length := (List.getElem?_eq_some_iff.1 h).1
  cases e with
  | dict d => simpa [mexec] using h
  | new s d c n =>
    simp only [mexec]
    rw [List.getElem?_append_left hi]; exact h
  | reset j bounds rvs pool draws =>
    simp only [mexec]
    split
    · exact h
    · split
      · exact h
      · exact h

theorem mexec_separate (w : MWorld K) (e : MEvent K) (hs : Separate w) (hl : Legal w e) : Separate (mexec w e).1 := by
  cases e with
  | dict d =>
    refine ⟨fun i o h => ?_, fun i j o p h1 h2 => hs.apart i j o p h1 h2⟩
    have := hs.own i o h
    simp only [mexec, List.length_append, List.length_singleton]
    omega
  | new s d c n =>
    obtain ⟨l1, l2, l3⟩ := hl
    have key : ∀ (i : ℕ) (o : MotorObj K), (w.motors ++ [(⟨w.heap.length, s, d, c, n⟩ : MotorObj K)])[i]? = some o →
        w.motors[i]? = some o ∨ (i = w.motors.length ∧ o = ⟨w.heap.length, s, d, c, n⟩) := by
      intro i o h
      rcases Nat.lt_trichotomy i w.motors.length with hi | hi | hi
      · left; rwa [List.getElem?_append_left hi] at h
      · right
        subst hi
        simp at h
        exact ⟨rfl, h.symm⟩
      · exfalso
        rw [List.getElem?_eq_none] at h
        · simp at h
        · simp; omega
    refine ⟨fun i o h => ?_, fun i j o p h1 h2 => ?_⟩
    · simp only [mexec] at h ⊢
      simp only [List.length_append, List.length_singleton]
      rcases key i o h with h | ⟨_, rfl⟩
      · have := hs.own i o h
        omega
      · simp only []
        omega
    · simp only [mexec] at h1 h2
      rcases key i o h1 with h1 | ⟨hi, rfl⟩ <;> rcases key j p h2 with h2 | ⟨hj, rfl⟩
      · exact hs.apart i j o p h1 h2
      · have := hs.own i o h1
        have h3 := l3 i o h1
        exact ⟨h3.1, h3.2, fun _ => by simp only []; omega⟩
      · have := hs.own j p h2
        refine ⟨?_, ?_, fun _ => ?_⟩ <;> simp only [] <;> omega
      · refine ⟨?_, ?_, fun hne => absurd (hi.trans hj.symm) hne⟩ <;> simp only [] <;> omega
  | reset j bounds rvs pool draws =>
    simp only [mexec]
    split
    · exact hs
    · split
      · exact hs
      · refine ⟨fun i o h => ?_, fun i j o p h1 h2 => hs.apart i j o p h1 h2⟩
        have := hs.own i o h
        simpa using this

theorem mexec_frame (w : MWorld K) (e : MEvent K) (hs : Separate w) (i : ℕ) (o : MotorObj K)
    (ho : w.motors[i]? = some o) (hne : ∀ bounds rvs pool draws, e ≠ .reset i bounds rvs pool draws) :
    (mexec w e).1.heap[o.own]? = w.heap[o.own]? ∧ (mexec w e).1.heap[o.states]? = w.heap[o.states]? ∧
      (mexec w e).1.heap[o.defaults]? = w.heap[o.defaults]? := by
  obtain ⟨b1, b2, b3⟩ := hs.own i o ho
  cases e with
  | dict d =>
    simp only [mexec]
    rw [List.getElem?_append_left b1, List.getElem?_append_left b2, List.getElem?_append_left b3]
    exact ⟨rfl, rfl, rfl⟩
  | new s d c n =>
    simp only [mexec]
    rw [List.getElem?_append_left b1, List.getElem?_append_left b2, List.getElem?_append_left b3]
    exact ⟨rfl, rfl, rfl⟩
  | reset j bounds rvs pool draws =>
    have hij : j ≠ i := fun h => hne bounds rvs pool draws (by rw [h])
    simp only [mexec]
    split
    · exact ⟨rfl, rfl, rfl⟩
    · rename_i p hp
      split
      · exact ⟨rfl, rfl, rfl⟩
      · have h1 := (hs.apart j i p o hp ho)
        simp only []
        rw [List.getElem?_set_ne (h1.2.2 hij), List.getElem?_set_ne h1.1, List.getElem?_set_ne h1.2.1]
        exact ⟨rfl, rfl, rfl⟩

/-- Every event of the program is legal when it happens. -/
def LegalRun (w : MWorld K) : List (MEvent K) → Prop
  | [] => True
  | e :: es => Legal w e ∧ LegalRun (mexec w e).1 es

theorem mrun_frame (w : MWorld K) (es : List (MEvent K)) (hs : Separate w) (hl : LegalRun w es) (i : ℕ) (o : MotorObj K)
    (ho : w.motors[i]? = some o) (hne : ∀ e ∈ es, ∀ bounds rvs pool draws, e ≠ .reset i bounds rvs pool draws) :
    (mrun w es).motors[i]? = some o ∧ (mrun w es).heap[o.own]? = w.heap[o.own]? ∧
      (mrun w es).heap[o.states]? = w.heap[o.states]? ∧ (mrun w es).heap[o.defaults]? = w.heap[o.defaults]? := by
  induction es generalizing w with
  | nil => exact ⟨ho, rfl, rfl, rfl⟩
  | cons e es ih =>
    have f := mexec_frame w e hs i o ho (hne e (by simp))
    have g := ih (mexec w e).1 (mexec_separate w e hs hl.1) hl.2 (mexec_motors w e i o ho)
      (fun e' he' => hne e' (List.mem_cons_of_mem _ he'))
    exact ⟨g.1, g.2.1.trans f.1, g.2.2.1.trans f.2.1, g.2.2.2.trans f.2.2⟩

theorem mrun_separate (w : MWorld K) (es : List (MEvent K)) (hs : Separate w) (hl : LegalRun w es) :
    Separate (mrun w es) := by
  induction es generalizing w with
  | nil => exact hs
  | cons e es ih => exact ih _ (mexec_separate w e hs hl.1) hl.2

/-- The rotor quantities every `DoublyFedInductionMotor` appends. -/
def rotorIos : List (String × String) :=
  [("u_ra", "i_ra"), ("u_rb", "i_rb"), ("u_rc", "i_rc"), ("u_rd", "i_rd"), ("u_rq", "i_rq")]

/-- `n` doubly fed motors were created. -/
def afterDfims (n : ℕ) : ImClass := (ImClass.newDfim)^[n] ImClass.initial

theorem afterDfims_zip (n : ℕ) : (afterDfims n).voltages.zip (afterDfims n).currents =
    imIos ++ (List.replicate n rotorIos).flatten ∧ (afterDfims n).voltages.length = (afterDfims n).currents.length := by
  induction n with
  | zero => exact ⟨by decide, by decide⟩
  | succ n ih =>
    have e : afterDfims (n + 1) = (afterDfims n).newDfim := by
      unfold afterDfims
      rw [Function.iterate_succ_apply']
    rw [e]
    refine ⟨?_, by simp [ImClass.newDfim, ih.2]⟩
    simp only [ImClass.newDfim]
    rw [List.zip_append ih.2, ih.1, List.replicate_succ', List.flatten_append, List.append_assoc]
    rfl

theorem mem_grown (n : ℕ) (p : String × String) (h : p ∈ imIos ++ (List.replicate n rotorIos).flatten) :
    p ∈ imIos ++ rotorIos := by
  simp only [List.mem_append, List.mem_flatten, List.mem_replicate] at h ⊢
  rcases h with h | ⟨l, ⟨_, rfl⟩, h⟩
  · exact Or.inl h
  · exact Or.inr h

theorem grown_succ (n : ℕ) (p : String × String) :
    p ∈ imIos ++ (List.replicate (n + 1) rotorIos).flatten ↔ p ∈ imIos ++ rotorIos := by
  simp [List.mem_append, List.mem_flatten, List.mem_replicate]

end GEM.Sharing
