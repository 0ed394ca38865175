import Mathlib.Tactic.Linarith
import Mathlib.Tactic.NormNum
import Mathlib.Tactic.Ring
import Mathlib.Tactic.FieldSimp
import Mathlib.Tactic.Positivity
import Mathlib.Tactic.FinCases
import Verif.Props.ClassicWindup
import Verif.Props.Motors

/-!
# C126: the integrators of the field oriented control of induction motors wind up

At the speed at which the estimation of the flux loses its damping (C59), rotating currents of constant amplitude let the estimated flux
grow without bounds.  The decoupling adds voltages that grow with it, the integrators make up for them, and the action never saturates.
-/

set_option linter.unusedSectionVars false

namespace GEM.Props

open GEM GEM.Classic

/-- the factor of the flux in one call of `estimate` with the speed `w` -/
noncomputable def spin (f : Flux) (w : ℝ) : ℂ := ⟨1 - f.tau * (f.rr / f.lr), f.tau * (w * f.p)⟩

/-- Parameters of a controller: everything is there, the states have places of their own, zero is an inner point of the actions. -/
structure ImComplete (c : ImFoc) : Prop where
  places : [c.iSd, c.iSq, c.omega, c.flux.abc 0, c.flux.abc 1, c.flux.abc 2].Nodup
  speed : c.flux.omega = c.omega
  iSd : 0 < c.limits c.iSd
  iSq : 0 < c.limits c.iSq
  omega : 0 < c.limits c.omega
  phases : ∀ j, 0 < c.limits (c.flux.abc j)
  voltages : ∀ j, 0 < c.limits (c.abc j)
  lo : c.lo < 0
  hi : 0 < c.hi
  resistance : c.rr ≠ 0 ∧ c.flux.rr ≠ 0
  inductances : c.lm ≠ 0 ∧ c.lr ≠ 0 ∧ c.flux.lm ≠ 0 ∧ c.flux.lr ≠ 0
  tau : c.flux.tau ≠ 0

/-- Rotating currents of amplitude `a`: the normalised state in call `k`; the component `i_sd` is `a`, `i_sq` is 0, the speed is `w`. -/
noncomputable def rotating (c : ImFoc) (w a : ℝ) (k : ℕ) : ℕ → ℝ := fun j =>
  let i := (a : ℂ) * spin c.flux w ^ (k + 1)
  let x := Motor.t32 ![i.re, i.im]
  if j = c.iSd then a / c.limits c.iSd
  else if j = c.iSq then 0
  else if j = c.omega then w / c.limits c.omega
  else if j = c.flux.abc 0 then x 0 / c.limits (c.flux.abc 0)
  else if j = c.flux.abc 1 then x 1 / c.limits (c.flux.abc 1)
  else if j = c.flux.abc 2 then x 2 / c.limits (c.flux.abc 2)
  else 0

/-- the sizes of the phases of a vector -/
theorem t32_le (x : Fin 2 → ℝ) (j : Fin 3) : |Motor.t32 x j| ≤ |x 0| + |x 1| := by
  have r3 : √3 ≤ 2 := by rw [Real.sqrt_le_left (by norm_num)]; norm_num
  have r0 := Real.sqrt_nonneg 3
  have e0 : Motor.t32 x 0 = x 0 := by simp [Motor.t32, Matrix.vecHead]
  have e1 : Motor.t32 x 1 = -(1 / 2) * x 0 + 1 / 2 * √3 * x 1 := by simp [Motor.t32, Matrix.mulVec, Matrix.vecHead, Matrix.vecTail]
  have e2 : Motor.t32 x 2 = -(1 / 2) * x 0 - 1 / 2 * √3 * x 1 := by
    simp [Motor.t32, Matrix.mulVec, Matrix.vecHead, Matrix.vecTail]; ring
  have hb : |1 / 2 * √3 * x 1| ≤ |x 1| := by
    rw [abs_mul, abs_of_nonneg (by positivity)]
    exact mul_le_of_le_one_left (abs_nonneg _) (by linarith)
  have ha : |-(1 / 2) * x 0| ≤ |x 0| := by
    rw [abs_mul]
    exact mul_le_of_le_one_left (abs_nonneg _) (by norm_num [abs_le])
  have n0 := abs_nonneg (x 0)
  have n1 := abs_nonneg (x 1)
  fin_cases j
  · show |Motor.t32 x 0| ≤ _
    rw [e0]; linarith
  · show |Motor.t32 x 1| ≤ _
    rw [e1]
    exact (abs_add_le _ _).trans (add_le_add ha hb)
  · show |Motor.t32 x 2| ≤ _
    rw [e2]
    exact (abs_sub _ _).trans (add_le_add ha hb)

theorem dqToAbc_le (u : Fin 2 → ℝ) (eps : ℝ) (j : Fin 3) : |Sys.dqToAbc u eps j| ≤ 2 * (|u 0| + |u 1|) := by
  refine (t32_le _ j).trans ?_
  have hc := Real.abs_cos_le_one eps
  have hs := Real.abs_sin_le_one eps
  have p1 : |Real.cos eps * u 0| ≤ |u 0| := by rw [abs_mul]; exact mul_le_of_le_one_left (abs_nonneg _) hc
  have p2 : |Real.sin eps * u 1| ≤ |u 1| := by rw [abs_mul]; exact mul_le_of_le_one_left (abs_nonneg _) hs
  have p3 : |Real.sin eps * u 0| ≤ |u 0| := by rw [abs_mul]; exact mul_le_of_le_one_left (abs_nonneg _) hs
  have p4 : |Real.cos eps * u 1| ≤ |u 1| := by rw [abs_mul]; exact mul_le_of_le_one_left (abs_nonneg _) hc
  have a0 : |Motor.q u eps 0| ≤ |u 0| + |u 1| := (abs_sub _ _).trans (add_le_add p1 p2)
  have a1 : |Motor.q u eps 1| ≤ |u 0| + |u 1| := (abs_add_le _ _).trans (add_le_add p3 p4)
  linarith

section

variable {c : ImFoc} (h : ImComplete c) {w : ℝ} (hw : ‖spin c.flux w‖ = 1)
include h

theorem rotating_iSd (w a : ℝ) (k : ℕ) : rotating c w a k c.iSd * c.limits c.iSd = a := by
  simp only [rotating, if_true]
  exact div_mul_cancel₀ _ h.iSd.ne'

theorem rotating_iSq (w a : ℝ) (k : ℕ) : rotating c w a k c.iSq * c.limits c.iSq = 0 := by
  have n := h.places
  simp only [List.nodup_cons, List.mem_cons, not_or] at n
  simp [rotating, Ne.symm n.1.1]

theorem rotating_omega (w a : ℝ) (k : ℕ) : rotating c w a k c.omega * c.limits c.omega = w := by
  have n := h.places
  simp only [List.nodup_cons, List.mem_cons, not_or] at n
  simp only [rotating, Ne.symm n.1.2.1, Ne.symm n.2.1.1, if_false, if_true]
  exact div_mul_cancel₀ _ h.omega.ne'

theorem rotating_phase (w a : ℝ) (k : ℕ) (j : Fin 3) : rotating c w a k (c.flux.abc j) * c.limits (c.flux.abc j)
    = Motor.t32 ![((a : ℂ) * spin c.flux w ^ (k + 1)).re, ((a : ℂ) * spin c.flux w ^ (k + 1)).im] j := by
  have n := h.places
  simp only [List.nodup_cons, List.mem_cons, not_or] at n
  obtain ⟨⟨-, -, d0, d1, d2, -⟩, ⟨-, q0, q1, q2, -⟩, ⟨o0, o1, o2, -⟩, ⟨a1, a2, -⟩, ⟨b2, -⟩, -⟩ := n
  fin_cases j
  · show rotating c w a k (c.flux.abc 0) * c.limits (c.flux.abc 0) = _
    simp only [rotating, Ne.symm d0, Ne.symm q0, Ne.symm o0, if_false, if_true]
    exact div_mul_cancel₀ _ (h.phases 0).ne'
  · show rotating c w a k (c.flux.abc 1) * c.limits (c.flux.abc 1) = _
    simp only [rotating, Ne.symm d1, Ne.symm q1, Ne.symm o1, Ne.symm a1, if_false, if_true]
    exact div_mul_cancel₀ _ (h.phases 1).ne'
  · show rotating c w a k (c.flux.abc 2) * c.limits (c.flux.abc 2) = _
    simp only [rotating, Ne.symm d2, Ne.symm q2, Ne.symm o2, Ne.symm a2, Ne.symm b2, if_false, if_true]
    exact div_mul_cancel₀ _ (h.phases 2).ne'

include hw

/-- the states are inside the limits -/
theorem rotating_within {a : ℝ} (ha : 0 ≤ a) (h1 : a ≤ c.limits c.iSd) (h2 : ∀ j, 2 * a ≤ c.limits (c.flux.abc j))
    (h3 : |w| ≤ c.limits c.omega) (k j : ℕ) : |rotating c w a k j| ≤ 1 := by
  have hx : ∀ j, |Motor.t32 ![((a : ℂ) * spin c.flux w ^ (k + 1)).re, ((a : ℂ) * spin c.flux w ^ (k + 1)).im] j| ≤ 2 * a := by
    intro j
    have e : ‖(a : ℂ) * spin c.flux w ^ (k + 1)‖ = a := by
      rw [norm_mul, norm_pow, hw, one_pow, mul_one, Complex.norm_real, Real.norm_eq_abs, abs_of_nonneg ha]
    have i1 := Complex.abs_re_le_norm ((a : ℂ) * spin c.flux w ^ (k + 1))
    have i2 := Complex.abs_im_le_norm ((a : ℂ) * spin c.flux w ^ (k + 1))
    rw [e] at i1 i2
    refine (t32_le _ j).trans ?_
    show |_| + |_| ≤ _
    simp only [Matrix.cons_val_zero, Matrix.cons_val_one]
    linarith
  have hd : ∀ {x l : ℝ}, 0 < l → |x| ≤ l → |x / l| ≤ 1 := fun {x l} hl hx => by
    rw [abs_div, abs_of_pos hl]
    exact div_le_one_of_le₀ hx hl.le
  simp only [rotating]
  split_ifs
  · exact hd h.iSd (by rwa [abs_of_nonneg ha])
  · simp
  · exact hd h.omega h3
  · exact hd (h.phases 0) ((hx 0).trans (h2 0))
  · exact hd (h.phases 1) ((hx 1).trans (h2 1))
  · exact hd (h.phases 2) ((hx 2).trans (h2 2))
  · simp

omit hw in
/-- the estimated flux grows by the same amount in every call -/
theorem rotating_flux (w a : ℝ) (k : ℕ) :
    c.flux.estimate (((k : ℝ) * (c.flux.rr * c.flux.lm / c.flux.lr * c.flux.tau * a) : ℝ) * spin c.flux w ^ k)
      (fun i => rotating c w a k i * c.limits i)
      = (((k + 1 : ℕ) : ℝ) * (c.flux.rr * c.flux.lm / c.flux.lr * c.flux.tau * a) : ℝ) * spin c.flux w ^ (k + 1) := by
  have e : ∀ psi : ℂ, ∀ s : ℕ → ℝ, c.flux.estimate psi s = psi * spin c.flux (s c.flux.omega)
      + (⟨Motor.t23 (fun j => s (c.flux.abc j)) 0, Motor.t23 (fun j => s (c.flux.abc j)) 1⟩ : ℂ)
        * ((c.flux.rr * c.flux.lm / c.flux.lr * c.flux.tau : ℝ) : ℂ) := by
    intro psi s
    have h1 : spin c.flux (s c.flux.omega) = 1 - (c.flux.tau : ℂ) * ⟨c.flux.rr / c.flux.lr, -(s c.flux.omega * c.flux.p)⟩ := by
      apply Complex.ext <;> simp [spin]
    rw [h1]
    simp only [Flux.estimate]
    push_cast
    ring
  rw [e]
  have e1 : (fun j => rotating c w a k (c.flux.abc j) * c.limits (c.flux.abc j))
      = Motor.t32 ![((a : ℂ) * spin c.flux w ^ (k + 1)).re, ((a : ℂ) * spin c.flux w ^ (k + 1)).im] :=
    funext fun j => rotating_phase h w a k j
  rw [e1, c32_t23_t32, h.speed, rotating_omega h]
  have e2 : (⟨![((a : ℂ) * spin c.flux w ^ (k + 1)).re, ((a : ℂ) * spin c.flux w ^ (k + 1)).im] 0,
      ![((a : ℂ) * spin c.flux w ^ (k + 1)).re, ((a : ℂ) * spin c.flux w ^ (k + 1)).im] 1⟩ : ℂ) = (a : ℂ) * spin c.flux w ^ (k + 1) := by
    apply Complex.ext <;> simp
  rw [e2]
  push_cast
  ring

end

/-- What the derivative part of a controller can add, as a factor of the error. -/
noncomputable def dGain (g : Gains ℝ) : ℝ := match g.d with | none => 0 | some d => |d / g.tau|

/-- a controller that has integrated `n` times the error `e` and either has seen only this error or nothing -/
def Saw (g : Gains ℝ) (e : ℝ) (n : ℕ) (x : Cont ℝ) : Prop :=
  Has g x ∧ x.integrated = n * (e * g.tau) ∧ (x.eOld = 0 ∨ x.eOld = e)

theorem saw_control {g : Gains ℝ} {e : ℝ} {n : ℕ} {x : Cont ℝ} (hx : Saw g e n x) {s r : ℝ} (he : r - s = e) :
    |(x.control s r).2 - ((n + 1 : ℕ) : ℝ) * (g.i * (e * g.tau))| ≤ (|g.p| + dGain g) * |e| ∧
    Saw g e (n + 1) ((x.control s r).1.integrate s r) := by
  obtain ⟨⟨h1, h2, h3, h4⟩, h5, h6⟩ := hx
  unfold Cont.control dGain
  rw [← h3]
  cases hd : x.d with
  | none =>
    refine ⟨?_, ⟨⟨h1, h2, h3, h4⟩, ?_, h6⟩⟩
    · dsimp only
      rw [he, h1, h2, h4, h5, add_zero, ← abs_mul]
      apply le_of_eq
      congr 1
      push_cast
      ring
    · simp only [Cont.integrate, h5, h4, he]
      push_cast
      ring
  | some d =>
    refine ⟨?_, ⟨⟨h1, h2, hd.symm.trans h3, h4⟩, ?_, ?_⟩⟩
    · dsimp only
      rw [he, h1, h2, h4, h5]
      have e1 : g.p * e + g.i * (n * (e * g.tau) + e * g.tau) + d * (e - x.eOld) / g.tau - ((n + 1 : ℕ) : ℝ) * (g.i * (e * g.tau))
          = g.p * e + d / g.tau * (e - x.eOld) := by push_cast; ring
      have e2 : |e - x.eOld| ≤ |e| := by
        rcases h6 with h | h <;> rw [h] <;> simp
      rw [e1, add_mul, ← abs_mul]
      refine (abs_add_le _ _).trans (add_le_add le_rfl ?_)
      rw [abs_mul]
      exact mul_le_mul_of_nonneg_left e2 (abs_nonneg _)
    · simp only [Cont.integrate, h5, h4, he]
      push_cast
      ring
    · exact Or.inr he

/-- One call with rotating currents: the decoupling grows with the flux, the integrators make up for it, and nothing saturates.  `x`, `y`
are the errors of `i_sd` and `i_sq`. -/
theorem rotating_step {c : ImFoc} (h : ImComplete c) (hdec : c.decoupling = true) {w : ℝ} (hw : ‖spin c.flux w‖ = 1) {refD refQ : ℕ}
    {g e : Gains ℝ} {A N x y κ : ℝ} (hA : 0 < A) (hκ : κ = c.flux.rr * c.flux.lm / c.flux.lr * c.flux.tau) {ref : ℕ → ℝ}
    (refd : ref refD * c.limits c.iSd = A + x) (refq : ref refQ * c.limits c.iSq = y)
    (hx : g.i * (x * g.tau) = c.lm * c.rr / c.lr ^ 2 * (|κ| * A)) (hy : e.i * (y * e.tau) = -(w * c.lm / c.lr * (|κ| * A)))
    (sum : 2 * ((|g.p| + dGain g) * |x| + (|w * c.sigma * c.ls| * A + (|e.p| + dGain e) * |y|)) ≤ N)
    (n4 : ∀ j, N ≤ -c.lo * c.limits (c.abc j)) (n5 : ∀ j, N ≤ c.hi * c.limits (c.abc j)) (n : ℕ) (st : (Cont ℝ × Cont ℝ) × ℂ)
    (s1 : Saw g x n st.1.1) (s2 : Saw e y n st.1.2) (s3 : st.2 = ((n : ℝ) * (κ * A) : ℝ) * spin c.flux w ^ n) :
    Saw g x (n + 1) (c.control refD refQ st (rotating c w A n) ref).1.1.1 ∧
    Saw e y (n + 1) (c.control refD refQ st (rotating c w A n) ref).1.1.2 ∧
    (c.control refD refQ st (rotating c w A n) ref).1.2 = (((n + 1 : ℕ) : ℝ) * (κ * A) : ℝ) * spin c.flux w ^ (n + 1) := by
  have hpsi : c.flux.estimate st.2 (fun i => rotating c w A n i * c.limits i)
      = (((n + 1 : ℕ) : ℝ) * (κ * A) : ℝ) * spin c.flux w ^ (n + 1) := by
    rw [s3, hκ]; exact rotating_flux h w A n
  refine ⟨?_, ?_, hpsi⟩
  all_goals
    simp only [ImFoc.control, ImFoc.currents, integrated]
    generalize c.flux.estimate st.2 (fun i => rotating c w A n i * c.limits i) = psi at hpsi
    have hnorm : ‖psi‖ = ((n + 1 : ℕ) : ℝ) * (|κ| * A) := by
      rw [hpsi, norm_mul, norm_pow, hw, one_pow, mul_one, Complex.norm_real, Real.norm_eq_abs, abs_mul, abs_mul, abs_of_pos hA,
        abs_of_nonneg (Nat.cast_nonneg _)]
    obtain ⟨b1, k1⟩ := saw_control s1 (s := rotating c w A n c.iSd * c.limits c.iSd) (r := ref refD * c.limits c.iSd)
      (by rw [refd, rotating_iSd h]; ring)
    obtain ⟨b2, k2⟩ := saw_control s2 (s := rotating c w A n c.iSq * c.limits c.iSq) (r := ref refQ * c.limits c.iSq)
      (by rw [refq, rotating_iSq h]; ring)
    have cpl : c.coupling (fun i => rotating c w A n i * c.limits i) ‖psi‖
        = ![-(((n + 1 : ℕ) : ℝ) * (g.i * (x * g.tau))), w * c.sigma * c.ls * A - ((n + 1 : ℕ) : ℝ) * (e.i * (y * e.tau))] := by
      rw [hnorm, hx, hy]
      simp only [ImFoc.coupling, hdec, if_true, rotating_iSd h, rotating_iSq h, rotating_omega h]
      funext j
      fin_cases j
      · simp
        ring
      · simp
        ring
    rw [cpl]
    generalize st.1.1.control (rotating c w A n c.iSd * c.limits c.iSd) (ref refD * c.limits c.iSd) = d at b1 k1 ⊢
    generalize st.1.2.control (rotating c w A n c.iSq * c.limits c.iSq) (ref refQ * c.limits c.iSq) = q at b2 k2 ⊢
    have u1 := abs_le.1 b1
    have u2 := abs_le.1 b2
    have u3 := abs_le.1 (le_of_eq (by rw [abs_mul, abs_of_pos hA] : |w * c.sigma * c.ls * A| = |w * c.sigma * c.ls| * A))
    have v1 : |-(((n + 1 : ℕ) : ℝ) * (g.i * (x * g.tau))) + d.2| ≤ (|g.p| + dGain g) * |x| := by
      rw [abs_le]; constructor <;> linarith [u1.1, u1.2]
    have v2 : |w * c.sigma * c.ls * A - ((n + 1 : ℕ) : ℝ) * (e.i * (y * e.tau)) + q.2|
        ≤ |w * c.sigma * c.ls| * A + (|e.p| + dGain e) * |y| := by
      rw [abs_le]; constructor <;> linarith [u2.1, u2.2, u3.1, u3.2]
    have inside : ∀ ud uq, |ud| ≤ (|g.p| + dGain g) * |x| → |uq| ≤ |w * c.sigma * c.ls| * A + (|e.p| + dGain e) * |y| →
        clip3 c.lo c.hi (fun j => Sys.dqToAbc ![ud, uq] psi.arg j / c.limits (c.abc j))
        = fun j => Sys.dqToAbc ![ud, uq] psi.arg j / c.limits (c.abc j) := by
      intro ud uq v1 v2
      funext j
      have p := h.voltages j
      have x1 := abs_le.1 ((dqToAbc_le ![ud, uq] psi.arg j).trans (by
        simp only [Matrix.cons_val_zero, Matrix.cons_val_one]; linarith : _ ≤ N))
      have lo' : c.lo ≤ Sys.dqToAbc ![ud, uq] psi.arg j / c.limits (c.abc j) := by rw [le_div_iff₀ p]; linarith [n4 j, x1.1]
      have hi' : Sys.dqToAbc ![ud, uq] psi.arg j / c.limits (c.abc j) ≤ c.hi := by rw [div_le_iff₀ p]; linarith [n5 j, x1.2]
      simp only [clip3, clip]
      rw [max_eq_left lo', min_eq_left hi']
    split_ifs with hc
    · first
        | exact k1
        | exact k2
    · exact absurd (inside _ _ v1 v2) hc

/-- C126, violated by the field oriented control of induction motors with decoupling: at the speed `w`, inside the limits, at which the
estimation of the flux loses its damping, the integral parts of both controllers grow beyond all bounds while all states and references are
inside the limits, whatever the gains are. -/
theorem c126_im_violated (c : ImFoc) (h : ImComplete c) (hdec : c.decoupling = true) (refD refQ : ℕ) (href : refD ≠ refQ) (g e : Gains ℝ)
    (hg : g.i ≠ 0 ∧ g.tau ≠ 0) (he : e.i ≠ 0 ∧ e.tau ≠ 0) (w : ℝ) (hw0 : w ≠ 0) (hw1 : |w| ≤ c.limits c.omega)
    (hw : ‖spin c.flux w‖ = 1) (B : ℝ) :
    ∃ calls : List (Asked ℝ), (∀ a ∈ calls, a.Bounded 1) ∧ B < |iPart (imAfter c refD refQ ((g.new, e.new), 0) calls).1.1| ∧
      B < |iPart (imAfter c refD refQ ((g.new, e.new), 0) calls).1.2| := by
  obtain ⟨r1, r2⟩ := h.resistance
  obtain ⟨l1, l2, l3, l4⟩ := h.inductances
  have t1 := h.tau
  -- the growth of the flux per call and ampere, the growth of the voltages, the errors per ampere
  obtain ⟨κ, hκ⟩ : ∃ x, x = c.flux.rr * c.flux.lm / c.flux.lr * c.flux.tau := ⟨_, rfl⟩
  have hκ0 : κ ≠ 0 := by rw [hκ]; positivity
  obtain ⟨gd, hgd⟩ : ∃ x, x = c.lm * c.rr / c.lr ^ 2 * |κ| := ⟨_, rfl⟩
  obtain ⟨gq, hgq⟩ : ∃ x, x = -(w * c.lm / c.lr * |κ|) := ⟨_, rfl⟩
  have hgd0 : gd ≠ 0 := by rw [hgd]; positivity
  have hgq0 : gq ≠ 0 := by rw [hgq]; exact neg_ne_zero.2 (by positivity)
  obtain ⟨ed, hed⟩ : ∃ x, x = gd / (g.i * g.tau) := ⟨_, rfl⟩
  obtain ⟨eq, heq⟩ : ∃ x, x = gq / (e.i * e.tau) := ⟨_, rfl⟩
  have hed' : g.i * (ed * g.tau) = gd := by
    have := hg.1
    have := hg.2
    rw [hed]; field_simp
  have heq' : e.i * (eq * e.tau) = gq := by
    have := he.1
    have := he.2
    rw [heq]; field_simp
  obtain ⟨C, hC⟩ : ∃ x, x = 2 + |ed| + |eq| + 2 * ((|g.p| + dGain g) * |ed| + (|w * c.sigma * c.ls| + (|e.p| + dGain e) * |eq|)) := ⟨_, rfl⟩
  have dg : ∀ g : Gains ℝ, 0 ≤ dGain g := fun g => by unfold dGain; split <;> simp
  have dg1 := dg g
  have dg2 := dg e
  have hC0 : 0 < C := by rw [hC]; positivity
  -- a current that is small enough
  obtain ⟨N, hN, n1, n2, n3, n4, n5⟩ : ∃ N : ℝ, 0 < N ∧ N ≤ c.limits c.iSd ∧ N ≤ c.limits c.iSq ∧ (∀ j, N ≤ c.limits (c.flux.abc j)) ∧
      (∀ j, N ≤ -c.lo * c.limits (c.abc j)) ∧ (∀ j, N ≤ c.hi * c.limits (c.abc j)) := by
    have hm : ∀ f : Fin 3 → ℝ, (∀ j, 0 < f j) → ∃ m, 0 < m ∧ ∀ j, m ≤ f j := fun f hf => by
      refine ⟨min (f 0) (min (f 1) (f 2)), lt_min (hf 0) (lt_min (hf 1) (hf 2)), fun j => ?_⟩
      fin_cases j
      · exact min_le_left _ _
      · exact (min_le_right _ _).trans (min_le_left _ _)
      · exact (min_le_right _ _).trans (min_le_right _ _)
    obtain ⟨a, ha, ha'⟩ := hm _ h.phases
    obtain ⟨b, hb, hb'⟩ := hm (fun j => -c.lo * c.limits (c.abc j)) fun j => mul_pos (by linarith [h.lo]) (h.voltages j)
    obtain ⟨d, hd, hd'⟩ := hm (fun j => c.hi * c.limits (c.abc j)) fun j => mul_pos h.hi (h.voltages j)
    refine ⟨min (min (c.limits c.iSd) (c.limits c.iSq)) (min a (min b d)), lt_min (lt_min h.iSd h.iSq) (lt_min ha (lt_min hb hd)),
      (min_le_left _ _).trans (min_le_left _ _), (min_le_left _ _).trans (min_le_right _ _),
      fun j => ((min_le_right _ _).trans (min_le_left _ _)).trans (ha' j),
      fun j => ((min_le_right _ _).trans ((min_le_right _ _).trans (min_le_left _ _))).trans (hb' j),
      fun j => ((min_le_right _ _).trans ((min_le_right _ _).trans (min_le_right _ _))).trans (hd' j)⟩
  obtain ⟨A, hA⟩ : ∃ x, x = N / C := ⟨_, rfl⟩
  have hA0 : 0 < A := by rw [hA]; positivity
  have hAC : C * A = N := by rw [hA]; field_simp
  have sum : 2 * A + |ed| * A + |eq| * A + 2 * ((|g.p| + dGain g) * |ed| * A + (|w * c.sigma * c.ls| * A + (|e.p| + dGain e) * |eq| * A)) = N := by
    rw [← hAC, hC]; ring
  have q1 : 0 ≤ |ed| * A := by positivity
  have q2 : 0 ≤ |eq| * A := by positivity
  have q3 : 0 ≤ (|g.p| + dGain g) * |ed| * A := by positivity
  have q4 : 0 ≤ (|e.p| + dGain e) * |eq| * A := by positivity
  have q5 : 0 ≤ |w * c.sigma * c.ls| * A := by positivity
  -- the references
  let ref : ℕ → ℝ := fun j => if j = refD then (A + ed * A) / c.limits c.iSd else if j = refQ then eq * A / c.limits c.iSq else 0
  have refd : ref refD * c.limits c.iSd = A + ed * A := by
    simp only [ref, if_true]
    exact div_mul_cancel₀ _ h.iSd.ne'
  have refq : ref refQ * c.limits c.iSq = eq * A := by
    simp only [ref, Ne.symm href, if_false, if_true]
    exact div_mul_cancel₀ _ h.iSq.ne'
  have refb : ∀ j, |ref j| ≤ 1 := by
    have hd : ∀ {x l : ℝ}, 0 < l → |x| ≤ l → |x / l| ≤ 1 := fun {x l} hl hx => by
      rw [abs_div, abs_of_pos hl]
      exact div_le_one_of_le₀ hx hl.le
    intro j
    simp only [ref]
    split_ifs
    · refine hd h.iSd ((abs_add_le _ _).trans ?_)
      rw [abs_mul, abs_of_pos hA0]
      linarith
    · refine hd h.iSq ?_
      rw [abs_mul, abs_of_pos hA0]
      linarith
    · simp
  -- one call
  have step : ∀ (n : ℕ) (st : (Cont ℝ × Cont ℝ) × ℂ), Saw g (ed * A) n st.1.1 → Saw e (eq * A) n st.1.2 →
      st.2 = ((n : ℝ) * (κ * A) : ℝ) * spin c.flux w ^ n →
      Saw g (ed * A) (n + 1) (c.control refD refQ st (rotating c w A n) ref).1.1.1 ∧
      Saw e (eq * A) (n + 1) (c.control refD refQ st (rotating c w A n) ref).1.1.2 ∧
      (c.control refD refQ st (rotating c w A n) ref).1.2 = (((n + 1 : ℕ) : ℝ) * (κ * A) : ℝ) * spin c.flux w ^ (n + 1) := by
    intro n st s1 s2 s3
    refine rotating_step h hdec hw hA0 hκ refd refq ?_ ?_ ?_ n4 n5 n st s1 s2 s3
    · rw [show g.i * (ed * A * g.tau) = g.i * (ed * g.tau) * A by ring, hed', hgd]; ring
    · rw [show e.i * (eq * A * e.tau) = e.i * (eq * e.tau) * A by ring, heq', hgq]; ring
    · rw [abs_mul ed, abs_mul eq, abs_of_pos hA0]
      have a1 : (|g.p| + dGain g) * (|ed| * A) = (|g.p| + dGain g) * |ed| * A := by ring
      have a2 : (|e.p| + dGain e) * (|eq| * A) = (|e.p| + dGain e) * |eq| * A := by ring
      linarith
  -- all calls
  let calls : ℕ → List (Asked ℝ) := fun n => (List.range n).map fun k => .control (rotating c w A k) ref
  have app : ∀ (l : List (Asked ℝ)) (st : (Cont ℝ × Cont ℝ) × ℂ) (s r : ℕ → ℝ),
      imAfter c refD refQ st (l ++ [.control s r]) = (c.control refD refQ (imAfter c refD refQ st l) s r).1 := by
    intro l
    induction l with
    | nil => exact fun st s r => rfl
    | cons a l ih =>
      intro st s r
      cases a with
      | reset => exact ih _ _ _
      | control x y => exact ih _ _ _
  have all : ∀ n, Saw g (ed * A) n (imAfter c refD refQ ((g.new, e.new), 0) (calls n)).1.1 ∧
      Saw e (eq * A) n (imAfter c refD refQ ((g.new, e.new), 0) (calls n)).1.2 ∧
      (imAfter c refD refQ ((g.new, e.new), 0) (calls n)).2 = ((n : ℝ) * (κ * A) : ℝ) * spin c.flux w ^ n := by
    intro n
    induction n with
    | zero =>
      refine ⟨⟨⟨rfl, rfl, rfl, rfl⟩, ?_, Or.inl rfl⟩, ⟨⟨rfl, rfl, rfl, rfl⟩, ?_, Or.inl rfl⟩, ?_⟩ <;>
        simp [calls, imAfter, Gains.new, Cont.new]
    | succ n ih =>
      have e1 : calls (n + 1) = calls n ++ [.control (rotating c w A n) ref] := by
        simp only [calls, List.range_succ, List.map_append, List.map_cons, List.map_nil]
      rw [e1, app]
      exact step n _ ih.1 ih.2.1 ih.2.2
  have part : ∀ (g : Gains ℝ) (x : ℝ) (n : ℕ) (y : Cont ℝ), Saw g x n y → iPart y = n * (g.i * (x * g.tau)) := by
    rintro g x n y ⟨⟨-, e1, -, -⟩, e2, -⟩
    rw [iPart, e1, e2]; ring
  obtain ⟨n, hn⟩ := exists_nat_gt (max (B / (|gd| * A)) (B / (|gq| * A)))
  have p1 : 0 < |gd| * A := mul_pos (abs_pos.2 hgd0) hA0
  have p2 : 0 < |gq| * A := mul_pos (abs_pos.2 hgq0) hA0
  refine ⟨calls n, ?_, ?_, ?_⟩
  · intro a ha
    simp only [calls, List.mem_map] at ha
    obtain ⟨k, -, rfl⟩ := ha
    exact fun j => ⟨rotating_within h hw hA0.le (by linarith) (fun j => by linarith [n3 j]) hw1 k j, refb j⟩
  · rw [part g _ _ _ (all n).1, show g.i * (ed * A * g.tau) = gd * A by rw [← hed']; ring, abs_mul, abs_mul, abs_of_pos hA0,
      abs_of_nonneg (Nat.cast_nonneg _), ← div_lt_iff₀ p1]
    exact lt_of_le_of_lt (le_max_left _ _) hn
  · rw [part e _ _ _ (all n).2.1, show e.i * (eq * A * e.tau) = gq * A by rw [← heq']; ring, abs_mul, abs_mul, abs_of_pos hA0,
      abs_of_nonneg (Nat.cast_nonneg _), ← div_lt_iff₀ p2]
    exact lt_of_le_of_lt (le_max_right _ _) hn

/-! ## Cases -/

/-- the controller of the default squirrel cage motor with 10 kHz; states `omega`, `torque`, `i_sa`, `i_sb`, `i_sc`, `i_sd`, `i_sq`,
`u_sa`, … -/
noncomputable def scimFoc : ImFoc where
  iSd := 5
  iSq := 6
  omega := 0
  abc := ![7, 8, 9]
  limits := fun j => if j = 0 then 418 else if j ≤ 6 then 55 / 10 else 280
  p := 2
  rs := 29338 / 10000
  rr := 1355 / 1000
  lm := 14375 / 100000
  lr := 14962 / 100000
  ls := 14962 / 100000
  lo := -1
  hi := 1
  decoupling := true
  flux := ⟨14375 / 100000, 14962 / 100000, 1355 / 1000, 2, 1 / 10000, ![2, 3, 4], 0⟩

theorem scimFoc_complete : ImComplete scimFoc where
  places := by decide
  speed := rfl
  iSd := by simp [scimFoc]
  iSq := by simp [scimFoc]
  omega := by simp [scimFoc]
  phases := by intro j; fin_cases j <;> simp [scimFoc]
  voltages := by intro j; fin_cases j <;> simp [scimFoc]
  lo := by simp [scimFoc]
  hi := by simp [scimFoc]
  resistance := by norm_num [scimFoc]
  inductances := by norm_num [scimFoc]
  tau := by norm_num [scimFoc]

/-- a speed between 212 and 213 rad/s, about half of the limit -/
example : ∃ w : ℝ, 212 < w ∧ w < 213 ∧ ∀ B : ℝ, ∃ calls : List (Asked ℝ), (∀ a ∈ calls, a.Bounded 1) ∧
    B < |iPart (imAfter scimFoc 0 1 ((Gains.new ⟨3, 200, none, 1 / 10000⟩, Gains.new ⟨4, 300, some 1, 1 / 10000⟩), 0) calls).1.1| ∧
    B < |iPart (imAfter scimFoc 0 1 ((Gains.new ⟨3, 200, none, 1 / 10000⟩, Gains.new ⟨4, 300, some 1, 1 / 10000⟩), 0) calls).1.2| := by
  have h0 : (0 : ℝ) ≤ (1 - (1 - 1 / 10000 * (1355 / 1000 / (14962 / 100000))) ^ 2) * 25000000 := by norm_num
  have w1 : 212 < √((1 - (1 - 1 / 10000 * (1355 / 1000 / (14962 / 100000))) ^ 2) * 25000000 : ℝ) := by
    rw [Real.lt_sqrt (by norm_num)]; norm_num
  have w2 : √((1 - (1 - 1 / 10000 * (1355 / 1000 / (14962 / 100000))) ^ 2) * 25000000 : ℝ) < 213 := by
    rw [Real.sqrt_lt' (by norm_num)]; norm_num
  refine ⟨_, w1, w2, fun B => c126_im_violated scimFoc scimFoc_complete rfl 0 1 (by norm_num) _ _ (by norm_num) (by norm_num) _ (by linarith) ?_ ?_ B⟩
  · rw [abs_of_pos (by linarith)]
    simp only [scimFoc, if_true]
    linarith
  · have e : ‖spin scimFoc.flux (√((1 - (1 - 1 / 10000 * (1355 / 1000 / (14962 / 100000))) ^ 2) * 25000000))‖ ^ 2 = 1 := by
      rw [← Complex.normSq_eq_norm_sq, spin, Complex.normSq_mk]
      simp only [scimFoc]
      have := Real.mul_self_sqrt h0
      linear_combination (4 / 100000000) * this
    have n := norm_nonneg (spin scimFoc.flux (√((1 - (1 - 1 / 10000 * (1355 / 1000 / (14962 / 100000))) ^ 2) * 25000000)))
    nlinarith

end GEM.Props
