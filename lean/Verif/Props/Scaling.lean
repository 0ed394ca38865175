import Verif.Props.Holding

/-!
# C141: limits only scale

The limits of a physical system scale what it reports and nothing else: systems that differ in the limits only go through the same physical states.
-/

set_option linter.unusedSectionVars false

namespace GEM.Props

noncomputable section

open GEM GEM.Sys GEM.Conv GEM.Motor GEM.Solver GEM.Load

/-- Two observations show the same physical values: whatever state has nonzero limits in both systems, value times limit is the same. -/
def SamePhysical (names : List String) (limits limits' o o' : List ℝ) : Prop :=
  o.length = o'.length ∧ ∀ n, readState names limits n ≠ 0 → readState names limits' n ≠ 0 →
    readState names o n * readState names limits n = readState names o' n * readState names limits' n

section

variable {Y U A S C P : Type}

theorem simulate_raw (p : Parts ℝ Y U A S C P) (f : Frame ℝ Y U A) (tau : ℝ) (st : St ℝ S C P) (a : A) :
    ∃ st' r, ∀ limits, simulate p f tau limits st a = (st', Except.bind r fun s => divLimits s limits) := by
  unfold simulate
  rcases h : p.setAction st.conv (f.action (p.solverY st.solver) a) st.t with ⟨cv, e | times⟩
  · exact ⟨_, .error e, fun _ => by simp only [h]; rfl⟩
  rcases h1 : pieces p f times.dropLast { st with conv := cv } with ⟨st1, e | u⟩
  · exact ⟨_, .error e, fun _ => by simp only [h, Call.bind, h1]; rfl⟩
  rcases h2 : piece p f f.lastU st1 (st1.t + tau) with ⟨st2, e | uv⟩
  · exact ⟨_, .error e, fun _ => by simp only [h, Call.bind, h1, h2]; rfl⟩
  · exact ⟨_, _, fun _ => by simp only [h, Call.bind, h1, h2]; rfl⟩

theorem reset_raw (p : Parts ℝ Y U A S C P) (rep : Y → List ℝ → List ℝ → Except Err (List ℝ)) (st : St ℝ S C P) (y : Y) :
    ∃ st' r, ∀ limits, reset p rep limits st y = (st', Except.bind r fun s => divLimits s limits) :=
  ⟨_, _, fun _ => rfl⟩

theorem same_physical (names : List String) {limits limits' : List ℝ} (hl : limits.length = limits'.length) (r : Except Err (List ℝ)) :
    Echo (SamePhysical names limits limits') (r.bind fun s => divLimits s limits) (r.bind fun s => divLimits s limits') := by
  cases r with
  | error e => exact rfl
  | ok s =>
    simp only [Except.bind, divLimits, ← hl]
    split_ifs
    · refine ⟨by simp [hl], fun n h h' => ?_⟩
      rw [read_div, read_div, div_mul_cancel₀ _ h, div_mul_cancel₀ _ h']
    · exact rfl

/-- C141: two systems that differ in their limits only answer all calls of simulate and reset with the same physical values, or with the same
exception.  Any motor, converter, supply, load and solver, both control spaces, any state of both systems, any names of the states. -/
theorem c141_limits (p : Parts ℝ Y U A S C P) (f : Frame ℝ Y U A) (rep : Y → List ℝ → List ℝ → Except Err (List ℝ)) (tau : ℝ)
    (names : List String) (limits limits' : List ℝ) (hl : limits.length = limits'.length) (st : St ℝ S C P) (ops : List (Y ⊕ A)) :
    List.Forall₂ (Echo (SamePhysical names limits limits')) (answers p f rep tau limits st ops) (answers p f rep tau limits' st ops) := by
  induction ops generalizing st with
  | nil => exact .nil
  | cons o ops ih =>
    cases o with
    | inl y =>
      obtain ⟨st', r, h⟩ := reset_raw p rep st y
      simp only [answers, h]
      exact .cons (same_physical names hl r) (ih st')
    | inr a =>
      obtain ⟨st', r, h⟩ := simulate_raw p f tau st a
      simp only [answers, h]
      exact .cons (same_physical names hl r) (ih st')

end

/-- A PMSM with limits of 5 and of 10: the second one reports half the values of the first one.  All actions and all starts. -/
example (mp : SyncParams ℝ) (T I : ℝ) (s : Euler ℝ (Fin (1 + 3) → ℝ)) (ops : List (SyncY ⊕ ℕ)) :
    let p := eulerParts finitePower (idealSource 400) .const (pmsmTorque mp) (syncOde (pmsmConstants mp)) none syncY ofSyncY
    let f := asIs (syncFrame (syncTq (pmsmTorque mp)) false)
    let ans := fun l => answers p f (syncReset (syncTq (pmsmTorque mp))) T (List.replicate 14 l) ⟨0, 0, s, .b6 (B6.new T I), ()⟩ ops
    List.Forall₂ (Echo fun o o' => readState syncStates o "i_sq" = 2 * readState syncStates o' "i_sq") (ans 5) (ans 10) := by
  intro p f ans
  refine (c141_limits p f _ T syncStates (List.replicate 14 5) (List.replicate 14 10) rfl _ ops).imp fun a b h => ?_
  cases a <;> cases b
  · exact h
  · exact h
  · exact h
  · have := h.2 "i_sq" (by simp [syncStates_eq, readState]) (by simp [syncStates_eq, readState])
    have e : ∀ l : ℝ, readState syncStates (List.replicate 14 l) "i_sq" = l := fun l => by simp [syncStates_eq, readState]
    rw [e, e] at this
    show readState _ _ _ = 2 * readState _ _ _
    linarith

end

end GEM.Props
