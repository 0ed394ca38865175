import Mathlib.Tactic.Linarith
import Mathlib.Tactic.Ring
import Mathlib.Tactic.FieldSimp
import Mathlib.Analysis.Calculus.FDeriv.Prod
import Mathlib.Analysis.Calculus.FDeriv.Pi
import Mathlib.Analysis.Calculus.FDeriv.Comp
import Mathlib.Analysis.Calculus.FDeriv.Linear
import Mathlib.Algebra.BigOperators.Fin
import Verif.Model.Systems
import Verif.Model.Solvers
import Verif.Props.Motors

/-! # Helper lemmas: physical systems -/

set_option linter.unusedSectionVars false

namespace GEM.Sys

open Real GEM.Motor

section common

variable {K Y U A S C P : Type} [Field K]

theorem piece_tk (p : Parts K Y U A S C P) (f : Frame K Y U A) (g : Y → List K → Except Err U) (st : St K S C P) (t : K) :
    (piece p f g st t).1.t = st.t ∧ (piece p f g st t).1.k = st.k := by
  unfold piece
  simp only []
  split
  · exact ⟨rfl, rfl⟩
  · split
    · exact ⟨rfl, rfl⟩
    · split
      · exact ⟨rfl, rfl⟩
      · exact ⟨rfl, rfl⟩

theorem pieces_tk (p : Parts K Y U A S C P) (f : Frame K Y U A) (ts : List K) (st : St K S C P) :
    (pieces p f ts st).1.t = st.t ∧ (pieces p f ts st).1.k = st.k := by
  induction ts generalizing st with
  | nil => exact ⟨rfl, rfl⟩
  | cons t ts ih =>
    have h := piece_tk p f f.loopU st t
    simp only [pieces, Call.bind]
    split
    · obtain ⟨h1, h2⟩ := ih (piece p f f.loopU st t).1
      exact ⟨h1.trans h.1, h2.trans h.2⟩
    · exact h

/-- A successful piece: what was computed. -/
theorem piece_ok (p : Parts K Y U A S C P) (f : Frame K Y U A) (g : Y → List K → Except Err U) (st : St K S C P) (t : K)
    (r : List K × List K) (h : (piece p f g st t).2 = .ok r) :
    ∃ is u v, p.iSup st.conv (f.iIn (p.solverY st.solver)) = .ok is ∧
      (p.convert st.conv (f.iIn (p.solverY st.solver)) (p.solverT st.solver)).2 = .ok u ∧
      g (p.solverY st.solver) (products u (p.getVoltage st.supply st.t is).2) = .ok v ∧
      r = (products u (p.getVoltage st.supply st.t is).2, (p.getVoltage st.supply st.t is).2) ∧
      (piece p f g st t).1.solver = p.integrate st.solver v t := by
  unfold piece at h ⊢
  simp only [] at h ⊢
  split at h
  · simp at h
  · rename_i is his
    split at h
    · simp at h
    · rename_i u hu
      split at h
      · simp at h
      · rename_i v hv
        simp only [Except.ok.injEq] at h
        refine ⟨is, u, v, his, hu, hv, h.symm, ?_⟩
        rfl

/-- A successful step: ODE states before and after the last integration, input and supply voltages, reported state. -/
theorem simulate_ok (p : Parts K Y U A S C P) (f : Frame K Y U A) (tau : K) (limits : List K) (st : St K S C P) (a : A)
    (v : List K) (h : (simulate p f tau limits st a).2 = .ok v) :
    ∃ (mid : St K S C P) (is : K) (u : List K) (w : U) (s : List K),
      (p.convert mid.conv (f.iIn (p.solverY mid.solver)) (p.solverT mid.solver)).2 = .ok u ∧
      mid.t = st.t ∧
      f.lastU (p.solverY mid.solver) (products u (p.getVoltage mid.supply mid.t is).2) = .ok w ∧
      (simulate p f tau limits st a).1.solver = p.integrate mid.solver w (st.t + tau) ∧
      f.report (p.solverY mid.solver) (p.solverY (simulate p f tau limits st a).1.solver)
        (products u (p.getVoltage mid.supply mid.t is).2) (p.getVoltage mid.supply mid.t is).2 = .ok s ∧
      divLimits s limits = .ok v := by
  unfold simulate at h ⊢
  simp only [] at h ⊢
  split at h
  · simp at h
  · rename_i times ht
    unfold Call.bind at h ⊢
    cases hp : (pieces p f times.dropLast { st with conv := (p.setAction st.conv (f.action (p.solverY st.solver) a) st.t).1 }).2 with
    | error e => simp [hp] at h
    | ok x =>
      simp only [hp] at h ⊢
      have htk := (pieces_tk p f times.dropLast
        { st with conv := (p.setAction st.conv (f.action (p.solverY st.solver) a) st.t).1 }).1
      generalize (pieces p f times.dropLast
        { st with conv := (p.setAction st.conv (f.action (p.solverY st.solver) a) st.t).1 }).1 = mid at h htk ⊢
      simp only [] at htk
      cases hq : (piece p f f.lastU mid (mid.t + tau)).2 with
      | error e => simp [hq] at h
      | ok uv =>
        simp only [hq] at h ⊢
        obtain ⟨is, u, w, h1, h2, h3, h4, h5⟩ := piece_ok p f f.lastU mid (mid.t + tau) uv hq
        subst h4
        simp only [] at h
        cases hr : f.report (p.solverY mid.solver) (p.solverY (piece p f f.lastU mid (mid.t + tau)).1.solver)
            (products u (p.getVoltage mid.supply mid.t is).2) (p.getVoltage mid.supply mid.t is).2 with
        | error e => rw [hr] at h; simp [Except.bind] at h
        | ok s =>
          rw [hr] at h
          refine ⟨mid, is, u, w, s, h2, htk, h3, ?_, hr, h⟩
          rw [h5, htk]

end common

/-! ## Rotations -/

theorem q_periodic (v : Fin 2 → ℝ) (a b : ℝ) (n : ℤ) (h : a = b + n * (2 * π)) : q v a = q v b := by
  subst h
  unfold q
  rw [cos_add_int_mul_two_pi, sin_add_int_mul_two_pi]

theorem q_eq_iff (v : Fin 2 → ℝ) (hv : v ≠ 0) (a b : ℝ) : q v a = q v b ↔ ∃ n : ℤ, a = b + n * (2 * π) := by
  constructor
  · intro h
    have h0 := congrFun h 0
    have h1 := congrFun h 1
    simp only [q, Matrix.cons_val_zero, Matrix.cons_val_one] at h0 h1
    have hs : v 0 ^ 2 + v 1 ^ 2 ≠ 0 := by
      intro hc
      apply hv
      have e0 : v 0 = 0 := by nlinarith [sq_nonneg (v 0), sq_nonneg (v 1)]
      have e1 : v 1 = 0 := by nlinarith [sq_nonneg (v 0), sq_nonneg (v 1)]
      funext i
      fin_cases i
      · exact e0
      · exact e1
    have hc : cos a = cos b := by
      have : (cos a - cos b) * (v 0 ^ 2 + v 1 ^ 2) = 0 := by linear_combination v 0 * h0 + v 1 * h1
      have := (mul_eq_zero.1 this).resolve_right hs
      linarith
    have hsn : sin a = sin b := by
      have : (sin a - sin b) * (v 0 ^ 2 + v 1 ^ 2) = 0 := by linear_combination v 0 * h1 - v 1 * h0
      have := (mul_eq_zero.1 this).resolve_right hs
      linarith
    have hd : cos (a - b) = 1 := by
      rw [cos_sub, hc, hsn]
      have := sin_sq_add_cos_sq b
      nlinarith
    obtain ⟨n, hn⟩ := (cos_eq_one_iff _).1 hd
    exact ⟨n, by linarith⟩
  · rintro ⟨n, h⟩
    exact q_periodic v a b n h

theorem t32_inj (v w : Fin 2 → ℝ) : t32 v = t32 w ↔ v = w := by
  constructor
  · intro h
    rw [← GEM.Props.c32_t23_t32 v, h, GEM.Props.c32_t23_t32]
  · rintro rfl; rfl

theorem q_zero (v : Fin 2 → ℝ) : q v 0 = v := by funext i; fin_cases i <;> simp [q]

theorem wrap_eq (e : ℝ) : ∃ n : ℤ, wrap e = e + n * (2 * π) := by
  unfold wrap
  simp only []
  split
  · exact ⟨-⌊e / (2 * π)⌋ - 1, by push_cast; ring⟩
  · exact ⟨-⌊e / (2 * π)⌋, by push_cast; ring⟩

theorem wrapReset_eq (e : ℝ) : ∃ n : ℤ, wrapReset e = e + n * (2 * π) := by
  unfold wrapReset
  split
  · exact ⟨-1, by push_cast; ring⟩
  · exact ⟨0, by simp⟩

theorem field_range (y : ImY) : -π < y.field ∧ y.field ≤ π := ⟨Complex.neg_pi_lt_arg _, Complex.arg_le_pi _⟩

theorem wrapReset_field (y : ImY) : wrapReset y.field = y.field := by
  unfold wrapReset
  rw [if_neg (not_lt.2 (field_range y).2)]

theorem three_ok (u : List ℝ) (v : Fin 3 → ℝ) (h : three u = .ok v) : u = l3 v := by
  unfold three at h
  split at h
  · simp only [Except.ok.injEq] at h
    subst h; rfl
  · simp at h

theorem three_l3 (v : Fin 3 → ℝ) : three (l3 v) = .ok v := by
  simp only [l3, three, Except.ok.injEq]
  funext i; fin_cases i <;> rfl

theorem three_take2 (u : List ℝ) : three (u.take 2) = .error .value := by
  rcases u with _ | ⟨a, _ | ⟨b, u⟩⟩ <;> rfl

end GEM.Sys
