import Mathlib.Tactic.NormNum
import Verif.Proofs.Systems
import Verif.Model.Supplies
import Verif.Props.Motors
import Verif.Props.Plant
import Verif.Props.Converters

/-!
# C33 – C35, C60, C70, C71: physical systems
-/

set_option linter.unusedSectionVars false

namespace GEM.Props

open Real GEM.Motor GEM.Sys GEM.Spec

/-! ## C33: reported angles -/

/-- The angle reported by `simulate` lies in (-π, π]. -/
theorem c33_range (e : ℝ) : -π < wrap e ∧ wrap e ≤ π := by
  have hp := pi_pos
  have h0 := Int.floor_le (e / (2 * π))
  have h1 := Int.lt_floor_add_one (e / (2 * π))
  have e1 : e = 2 * π * (e / (2 * π)) := by field_simp
  have l : 0 ≤ e - 2 * π * ⌊e / (2 * π)⌋ := by
    have := mul_le_mul_of_nonneg_left h0 (by positivity : (0 : ℝ) ≤ 2 * π)
    linarith
  have u : e - 2 * π * ⌊e / (2 * π)⌋ < 2 * π := by
    have := mul_lt_mul_of_pos_left h1 (by positivity : (0 : ℝ) < 2 * π)
    linarith
  unfold wrap
  simp only []
  split
  · constructor <;> linarith
  · rename_i h
    push Not at h
    constructor <;> linarith

/-- … and differs from the integrated angle by full turns. -/
theorem c33_turns (e : ℝ) : ∃ n : ℤ, wrap e = e + n * (2 * π) := wrap_eq e

/-- Together this determines the reported angle. -/
theorem c33_unique (e r : ℝ) (h1 : -π < r) (h2 : r ≤ π) (n : ℤ) (h : r = e + n * (2 * π)) : wrap e = r := by
  obtain ⟨m, hm⟩ := wrap_eq e
  obtain ⟨l, u⟩ := c33_range e
  have hp := pi_pos
  have hd : wrap e - r = (m - n : ℤ) * (2 * π) := by rw [hm, h]; push_cast; ring
  have hz : m - n = 0 := by
    have a1 : ((m - n : ℤ) : ℝ) < 1 := by
      by_contra hc
      push Not at hc
      have : 1 * (2 * π) ≤ ((m - n : ℤ) : ℝ) * (2 * π) := mul_le_mul_of_nonneg_right hc (by positivity)
      linarith
    have a2 : (-1 : ℝ) < ((m - n : ℤ) : ℝ) := by
      by_contra hc
      push Not at hc
      have : ((m - n : ℤ) : ℝ) * (2 * π) ≤ -1 * (2 * π) := mul_le_mul_of_nonneg_right hc (by positivity)
      linarith
    have b1 : m - n < 1 := by exact_mod_cast a1
    have b2 : -1 < m - n := by exact_mod_cast a2
    omega
  rw [hz] at hd
  simp at hd
  linarith

/-- The angle reported by `reset` always differs by full turns, and is in range if the initial angle is in (-π, 3π]. -/
theorem c33_reset_partial (e : ℝ) : (∃ n : ℤ, wrapReset e = e + n * (2 * π)) ∧
    (-π < e → e ≤ 3 * π → -π < wrapReset e ∧ wrapReset e ≤ π ∧ wrapReset e = wrap e) := by
  refine ⟨wrapReset_eq e, fun h1 h2 => ?_⟩
  have hr : -π < wrapReset e ∧ wrapReset e ≤ π := by
    unfold wrapReset
    split
    · constructor <;> linarith
    · rename_i h
      push Not at h
      exact ⟨h1, h⟩
  obtain ⟨n, hn⟩ := wrapReset_eq e
  exact ⟨hr.1, hr.2, (c33_unique e _ hr.1 hr.2 n hn).symm⟩

/-- Other initial angles are reported out of range. -/
theorem c33_reset_violated (e : ℝ) (h : e ≤ -π ∨ 3 * π < e) : wrapReset e ≤ -π ∨ π < wrapReset e := by
  have hp := pi_pos
  unfold wrapReset
  split
  · right
    rcases h with h | h <;> linarith
  · left
    rename_i h'
    push Not at h'
    rcases h with h | h <;> linarith

example : wrap (3 * π) = π := c33_unique _ _ (by linarith [pi_pos]) le_rfl (-1) (by push_cast; ring)
example : wrap (-π) = π := c33_unique _ _ (by linarith [pi_pos]) le_rfl 1 (by push_cast; ring)
example : wrapReset (-π) = -π := by unfold wrapReset; rw [if_neg (by linarith [pi_pos])]

/-! ## C35: time and step counter -/

section time

variable {K Y U A S C P : Type} [Field K]

/-- Every call of `simulate` either does not finish its integration and leaves time and counter alone, or advances the
counter by one and sets the time to that of the solver. -/
theorem c35_step (p : Parts K Y U A S C P) (f : Frame K Y U A) (tau : K) (limits : List K)
    (hs : ∀ s u t, p.solverT (p.integrate s u t) = t) (st : St K S C P) (a : A) :
    ((simulate p f tau limits st a).1.k = st.k ∧ (simulate p f tau limits st a).1.t = st.t ∧
      ∃ e, (simulate p f tau limits st a).2 = .error e) ∨
    ((simulate p f tau limits st a).1.k = st.k + 1 ∧ (simulate p f tau limits st a).1.t = st.t + tau) := by
  unfold simulate
  simp only []
  split
  · left; exact ⟨rfl, rfl, _, rfl⟩
  · rename_i times ht
    have h1 := pieces_tk p f times.dropLast { st with conv := (p.setAction st.conv (f.action (p.solverY st.solver) a) st.t).1 }
    unfold Call.bind
    split
    · rename_i hp
      generalize (pieces p f times.dropLast
        { st with conv := (p.setAction st.conv (f.action (p.solverY st.solver) a) st.t).1 }).1 = mid at h1 ⊢
      have h2 := piece_tk p f f.lastU mid (mid.t + tau)
      simp only []
      split
      · rename_i uv hq
        right
        obtain ⟨is, u, w, _, _, _, _, h5⟩ := piece_ok p f f.lastU mid (mid.t + tau) uv hq
        simp only []
        rw [h2.2, h1.2, h5, hs, h1.1]
        exact ⟨rfl, rfl⟩
      · left
        exact ⟨h2.2.trans h1.2, h2.1.trans h1.1, _, rfl⟩
    · left
      exact ⟨h1.2, h1.1, _, rfl⟩

/-- The calls that return a state. -/
def allOk (p : Parts K Y U A S C P) (f : Frame K Y U A) (tau : K) (limits : List K) : St K S C P → List A → Prop
  | _, [] => True
  | st, a :: as => (∃ v, (simulate p f tau limits st a).2 = .ok v) ∧
      allOk p f tau limits (simulate p f tau limits st a).1 as

/-- After a reset and n steps the counter is n and the time n·tau, whatever the actions, the switching times of the converter
and the reported states are. -/
theorem c35_time (p : Parts K Y U A S C P) (f : Frame K Y U A) (rep : Y → List K → List K → Except Err (List K)) (tau : K)
    (limits : List K) (hs : ∀ s u t, p.solverT (p.integrate s u t) = t) (st : St K S C P) (y : Y) (as : List A)
    (h : allOk p f tau limits (reset p rep limits st y).1 as) :
    (simulates p f tau limits (reset p rep limits st y).1 as).k = as.length ∧
    (simulates p f tau limits (reset p rep limits st y).1 as).t = as.length * tau := by
  have key : ∀ (as : List A) (s : St K S C P), allOk p f tau limits s as →
      (simulates p f tau limits s as).k = s.k + as.length ∧ (simulates p f tau limits s as).t = s.t + as.length * tau := by
    intro as
    induction as with
    | nil => intro s _; simp [simulates]
    | cons a as ih =>
      intro s hk
      obtain ⟨⟨v, hv⟩, hk⟩ := hk
      obtain ⟨i1, i2⟩ := ih _ hk
      rcases c35_step p f tau limits hs s a with ⟨_, _, e, he⟩ | ⟨h1, h2⟩
      · rw [he] at hv; simp at hv
      · have e : simulates p f tau limits s (a :: as) = simulates p f tau limits (simulate p f tau limits s a).1 as := rfl
        rw [e, i1, i2, h1, h2]
        refine ⟨by simp; omega, by push_cast [List.length_cons]; ring⟩
  obtain ⟨h1, h2⟩ := key as _ h
  rw [h1, h2]
  simp [reset]

/-- The returned array is the physical state divided by the limits: multiplied by them it gives the physical state back. -/
theorem c35_scaled (p : Parts K Y U A S C P) (f : Frame K Y U A) (tau : K) (limits : List K) (hl : ∀ l ∈ limits, l ≠ 0)
    (st : St K S C P) (a : A) (v : List K) (h : (simulate p f tau limits st a).2 = .ok v) :
    ∃ (y y' : Y) (u us : List K), y' = p.solverY (simulate p f tau limits st a).1.solver ∧
      f.report y y' u us = .ok (List.zipWith (· * ·) v limits) ∧ v.length = limits.length := by
  obtain ⟨mid, is, u, w, s, _, _, _, _, h5, h6⟩ := simulate_ok p f tau limits st a v h
  refine ⟨p.solverY mid.solver, _, _, _, rfl, h5.trans ?_, ?_⟩
  all_goals
    unfold divLimits at h6
    split at h6
    · rename_i hlen
      simp only [Except.ok.injEq] at h6
      subst h6
      first
      | (congr 1
         apply List.ext_getElem
         · simp [hlen]
         · intro i h1 h2
           have hi : i < limits.length := by rw [← hlen]; exact h1
           simp only [List.getElem_zipWith]
           rw [div_mul_cancel₀]
           exact hl _ (List.getElem_mem hi))
      | simp [hlen]
    · simp at h6

/-- The explicit Euler solver of the package honours the end time. -/
theorem c35_euler {Y : Type} [AddCommGroup Y] [Module K Y] (f : K → Y → Y) (s : GEM.Solver.Euler K Y) (h : s.nsteps ≠ 0)
    (t : K) : (s.integrate f t).1.t = t := by
  unfold GEM.Solver.Euler.integrate
  split
  · rfl
  · rfl

/-- Simple components: a solver that only keeps the time and a converter with two switching times per step. -/
def demoParts : Parts ℚ ℚ ℚ ℚ (ℚ × ℚ) ℚ Unit where
  solverT s := s.1
  solverY s := s.2
  integrate s u t := (t, s.2 + (t - s.1) * u)
  setInitial _ y t := (t, y)
  setAction _ a t := (a, .ok [t + 1 / 4, t + 1])
  convert c _ _ := (c, .ok [c])
  iSup _ _ := .ok 0
  convReset _ := (0, [0])
  getVoltage _ _ _ := ((), [10])
  supplyReset _ := ((), [10])

/-- A system with these components. -/
def demoFrame : Frame ℚ ℚ ℚ ℚ where
  iIn y := [y]
  action _ a := a
  loopU _ u := match u with | [x] => .ok x | _ => .error .value
  lastU _ u := match u with | [x] => .ok x | _ => .error .value
  report _ y' u us := .ok ([y'] ++ u ++ us)

/-- After a reset, in the middle of nowhere before. -/
def demoStart : St ℚ (ℚ × ℚ) ℚ Unit :=
  (reset demoParts (fun y u us => .ok ([y] ++ u ++ us)) [2, 10, 10] ⟨7, 9, (7, 3), 5, ()⟩ 1).1

/-- Two steps. -/
example : (simulates demoParts demoFrame 1 [2, 10, 10] demoStart [1 / 2, 1]).t = 2 ∧
    (simulates demoParts demoFrame 1 [2, 10, 10] demoStart [1 / 2, 1]).k = 2 ∧
    (simulates demoParts demoFrame 1 [2, 10, 10] demoStart [1 / 2, 1]).solver = (2, 16) := by decide +kernel

example : allOk demoParts demoFrame 1 [2, 10, 10] demoStart [1 / 2, 1] := by
  refine ⟨⟨[3, 1 / 2, 1], by decide +kernel⟩, ⟨[8, 1, 1], by decide +kernel⟩, trivial⟩

end time

/-! ## C34: reported quantities -/

section report

/-- Synchronous systems, `simulate`: every quantity stands at its name; currents, torque and angle are those of the new
state, the voltages those that were applied, transformed at the angle at which they were applied. Missing for C34: the phase
currents are computed with the angle before the last integration (`y.eps`), see `c34_sync_iff`. -/
theorem c34_sync_partial (torque : SyncY → ℝ) (dq : Bool) (y y' : SyncY) (v : Fin 3 → ℝ) (us : ℝ) (mechNames : List String)
    (hm : mechNames.length = y'.mech.length) :
    ∃ s, (syncFrame torque dq).report y y' (l3 v) [us] = .ok s ∧
      (syncNames mechNames).zip s = mechNames.zip y'.mech ++
        [("torque", torque y'), ("i_a", dqToAbc y'.i y.eps 0), ("i_b", dqToAbc y'.i y.eps 1), ("i_c", dqToAbc y'.i y.eps 2),
         ("i_sd", y'.i 0), ("i_sq", y'.i 1), ("u_a", v 0), ("u_b", v 1), ("u_c", v 2), ("u_sd", abcToDq v y.eps 0),
         ("u_sq", abcToDq v y.eps 1), ("epsilon", wrap y'.eps), ("u_sup", us)] := by
  refine ⟨_, by simp only [syncFrame, three_l3, Except.map]; rfl, ?_⟩
  simp only [syncNames, List.append_assoc]
  rw [List.zip_append hm]
  simp [l3, l2]

/-- The reported phase currents fit the reported dq currents and angle exactly if the current is zero or the angle did not
change (by anything but full turns) during the last integration. -/
theorem c34_sync_iff (y y' : SyncY) :
    dqToAbc y'.i y.eps = dqToAbc y'.i (wrap y'.eps) ↔ y'.i = 0 ∨ ∃ n : ℤ, y.eps = y'.eps + n * (2 * π) := by
  unfold dqToAbc
  rw [t32_inj]
  by_cases hv : y'.i = 0
  · simp only [hv, true_or, iff_true]
    funext i; fin_cases i <;> simp [q]
  · rw [q_eq_iff _ hv]
    simp only [hv, false_or]
    obtain ⟨m, hm⟩ := wrap_eq y'.eps
    constructor
    · rintro ⟨n, hn⟩
      exact ⟨n + m, by rw [hn, hm]; push_cast; ring⟩
    · rintro ⟨n, hn⟩
      exact ⟨n - m, by rw [hn, hm]; push_cast; ring⟩

/-- So at non-zero current and whenever the rotor turned by a fraction of a turn, the reported phase currents are not those
of the reported dq currents at the reported angle. -/
theorem c34_sync_violated (torque : SyncY → ℝ) (dq : Bool) (y y' : SyncY) (v : Fin 3 → ℝ) (us : ℝ) (s : List ℝ)
    (hs : (syncFrame torque dq).report y y' (l3 v) [us] = .ok s) (hi : y'.i ≠ 0)
    (he : ∀ n : ℤ, y.eps ≠ y'.eps + n * (2 * π)) :
    (s.drop (y'.mech.length + 1)).take 3 ≠ l3 (dqToAbc y'.i (wrap y'.eps)) := by
  simp only [syncFrame, three_l3, Except.map, Except.ok.injEq] at hs
  subst hs
  have h : dqToAbc y'.i y.eps ≠ dqToAbc y'.i (wrap y'.eps) := by
    rw [Ne, c34_sync_iff]
    push Not
    exact ⟨hi, he⟩
  intro hc
  apply h
  have e : ((y'.mech ++ [torque y'] ++ l3 (dqToAbc y'.i y.eps) ++ l2 y'.i ++ l3 v ++ l2 (abcToDq v y.eps) ++
      [wrap y'.eps] ++ [us]).drop (y'.mech.length + 1)).take 3 = l3 (dqToAbc y'.i y.eps) := by
    simp only [List.append_assoc]
    rw [← List.drop_drop, List.drop_left]
    simp [l3]
  rw [e] at hc
  simp only [l3, List.cons.injEq, and_true] at hc
  funext i
  fin_cases i
  · exact hc.1
  · exact hc.2.1
  · exact hc.2.2

/-- Synchronous systems, `reset`: every quantity stands at its name and all of them belong to the same angle. -/
theorem c34_sync_reset (torque : SyncY → ℝ) (y : SyncY) (v : Fin 3 → ℝ) (us : ℝ) (mechNames : List String)
    (hm : mechNames.length = y.mech.length) :
    ∃ s, syncReset torque y (l3 v) [us] = .ok s ∧
      (syncNames mechNames).zip s = mechNames.zip y.mech ++
        [("torque", torque y), ("i_a", dqToAbc y.i y.eps 0), ("i_b", dqToAbc y.i y.eps 1), ("i_c", dqToAbc y.i y.eps 2),
         ("i_sd", y.i 0), ("i_sq", y.i 1), ("u_a", v 0), ("u_b", v 1), ("u_c", v 2), ("u_sd", abcToDq v y.eps 0),
         ("u_sq", abcToDq v y.eps 1), ("epsilon", wrapReset y.eps), ("u_sup", us)] := by
  obtain ⟨n, hn⟩ := wrapReset_eq y.eps
  have e1 : dqToAbc y.i (wrapReset y.eps) = dqToAbc y.i y.eps := by
    unfold dqToAbc
    rw [q_periodic _ _ _ n hn]
  have e2 : abcToDq v (wrapReset y.eps) = abcToDq v y.eps := by
    unfold abcToDq qInv
    rw [q_periodic _ _ (-y.eps) (-n) (by rw [hn]; push_cast; ring)]
  refine ⟨_, by simp only [syncReset, three_l3, Except.map]; rfl, ?_⟩
  simp only [syncNames, List.append_assoc]
  rw [List.zip_append hm]
  simp [l3, l2, e1, e2]

/-- EESM, `simulate`: as for the other synchronous machines. -/
theorem c34_eesm_partial (torque : EesmY → ℝ) (y y' : EesmY) (v : Fin 3 → ℝ) (ue us : ℝ) (mechNames : List String)
    (hm : mechNames.length = y'.mech.length) :
    ∃ s, (eesmFrame torque).report y y' (l3 v ++ [ue]) [us] = .ok s ∧
      (eesmNames mechNames).zip s = mechNames.zip y'.mech ++
        [("torque", torque y'), ("i_a", dqToAbc y'.i y.eps 0), ("i_b", dqToAbc y'.i y.eps 1), ("i_c", dqToAbc y'.i y.eps 2),
         ("i_sd", y'.i 0), ("i_sq", y'.i 1), ("i_e", y'.ie), ("u_a", v 0), ("u_b", v 1), ("u_c", v 2),
         ("u_sd", abcToDq v y.eps 0), ("u_sq", abcToDq v y.eps 1), ("u_e", ue), ("epsilon", wrap y'.eps), ("u_sup", us)] := by
  have e : (l3 v ++ [ue]).take 3 = l3 v := by simp [l3]
  refine ⟨_, by simp only [eesmFrame, e, three_l3, Except.map]; rfl, ?_⟩
  simp only [eesmNames, List.append_assoc]
  rw [List.zip_append hm]
  simp [l3, l2]

/-- EESM, `reset`: the excitation voltage is reported as `u_sd`, the d voltage as `u_sq` and the q voltage as `u_e`. -/
theorem c34_eesm_reset_violated (torque : EesmY → ℝ) (y : EesmY) (v : Fin 3 → ℝ) (ue us : ℝ) (mechNames : List String)
    (hm : mechNames.length = y.mech.length) :
    ∃ s, eesmReset torque y (l3 v ++ [ue]) [us] = .ok s ∧
      (eesmNames mechNames).zip s = mechNames.zip y.mech ++
        [("torque", torque y), ("i_a", dqToAbc y.i y.eps 0), ("i_b", dqToAbc y.i y.eps 1), ("i_c", dqToAbc y.i y.eps 2),
         ("i_sd", y.i 0), ("i_sq", y.i 1), ("i_e", y.ie), ("u_a", v 0), ("u_b", v 1), ("u_c", v 2),
         ("u_sd", ue), ("u_sq", abcToDq v y.eps 0), ("u_e", abcToDq v y.eps 1), ("epsilon", wrapReset y.eps), ("u_sup", us)] := by
  obtain ⟨n, hn⟩ := wrapReset_eq y.eps
  have e1 : dqToAbc y.i (wrapReset y.eps) = dqToAbc y.i y.eps := by
    unfold dqToAbc
    rw [q_periodic _ _ _ n hn]
  have e2 : abcToDq v (wrapReset y.eps) = abcToDq v y.eps := by
    unfold abcToDq qInv
    rw [q_periodic _ _ (-y.eps) (-n) (by rw [hn]; push_cast; ring)]
  have e : (l3 v ++ [ue]).take 3 = l3 v := by simp [l3]
  refine ⟨_, by simp only [eesmReset, e, three_l3, Except.map]; rfl, ?_⟩
  simp only [eesmNames, List.append_assoc]
  rw [List.zip_append hm]
  simp [l3, l2, e1, e2]

/-- With the converters of the package (all bridge legs equal after a reset, no excitation voltage) the interchange is not
visible: all three values are zero. -/
theorem c34_eesm_reset_partial (torque : EesmY → ℝ) (y : EesmY) (c us : ℝ) (mechNames : List String)
    (hm : mechNames.length = y.mech.length) :
    ∃ s, eesmReset torque y (l3 ![c, c, c] ++ [0]) [us] = .ok s ∧
      (eesmNames mechNames).zip s = mechNames.zip y.mech ++
        [("torque", torque y), ("i_a", dqToAbc y.i y.eps 0), ("i_b", dqToAbc y.i y.eps 1), ("i_c", dqToAbc y.i y.eps 2),
         ("i_sd", y.i 0), ("i_sq", y.i 1), ("i_e", y.ie), ("u_a", c), ("u_b", c), ("u_c", c),
         ("u_sd", abcToDq ![c, c, c] y.eps 0), ("u_sq", abcToDq ![c, c, c] y.eps 1), ("u_e", 0), ("epsilon", wrapReset y.eps),
         ("u_sup", us)] := by
  obtain ⟨s, h1, h2⟩ := c34_eesm_reset_violated torque y ![c, c, c] 0 us mechNames hm
  refine ⟨s, h1, ?_⟩
  have h0 : abcToDq ![c, c, c] y.eps = ![0, 0] := by
    have : t23 ![c, c, c] = ![0, 0] := by
      funext i
      fin_cases i <;> simp [t23, Matrix.mulVec, dotProduct, Fin.sum_univ_succ]
      ring
    unfold abcToDq
    rw [this]
    funext i; fin_cases i <;> simp [qInv, q]
  rw [h2, h0]
  simp

/-- EESM: a step with more than one switching time (interlocking of a finite converter) always raises `ValueError` after the
converter has delivered its voltages. -/
theorem c34_eesm_interlock_violated {S C P : Type} (p : Parts ℝ EesmY (List ℝ) (List ℝ) S C P) (torque : EesmY → ℝ)
    (tau : ℝ) (limits : List ℝ) (st : St ℝ S C P) (a : List ℝ) (t1 t2 : ℝ) (ts : List ℝ)
    (h1 : (p.setAction st.conv a st.t).2 = .ok (t1 :: t2 :: ts))
    (h2 : ∀ c i, ∃ is, p.iSup c i = .ok is) (h3 : ∀ c i t, ∃ u, (p.convert c i t).2 = .ok u) :
    (simulate p (eesmFrame torque) tau limits st a).2 = .error .value := by
  unfold simulate
  have ha : (eesmFrame torque).action (p.solverY st.solver) a = a := rfl
  simp only [ha, h1]
  have hd : (t1 :: t2 :: ts).dropLast = t1 :: (t2 :: ts).dropLast := rfl
  rw [hd, pieces]
  have hp : ∀ (st : St ℝ S C P) (t : ℝ), (piece p (eesmFrame torque) (eesmFrame torque).loopU st t).2 = .error .value := by
    intro st t
    obtain ⟨is, his⟩ := h2 st.conv ((eesmFrame torque).iIn (p.solverY st.solver))
    obtain ⟨u, hu⟩ := h3 st.conv ((eesmFrame torque).iIn (p.solverY st.solver)) (p.solverT st.solver)
    unfold piece
    simp only [his, hu]
    have : ∀ y l, (eesmFrame torque).loopU y l = .error .value := by
      intro y l
      simp only [eesmFrame, three_take2]
      rfl
    rw [this]
  simp [Call.bind, hp]

/-- Squirrel cage motor, `simulate`: every quantity stands at its name, the phase currents are those of the new state. Missing
for C34: the dq currents use the field angle before the last integration. -/
theorem c34_scim_partial (torque : ImY → ℝ) (dq : Bool) (y y' : ImY) (v : Fin 3 → ℝ) (us : ℝ) (mechNames : List String)
    (hm : mechNames.length = y'.mech.length) :
    ∃ s, (scimFrame torque dq).report y y' (l3 v) [us] = .ok s ∧
      (scimNames mechNames).zip s = mechNames.zip y'.mech ++
        [("torque", torque y'), ("i_sa", t32 y'.i 0), ("i_sb", t32 y'.i 1), ("i_sc", t32 y'.i 2),
         ("i_sd", qInv y'.i y.field 0), ("i_sq", qInv y'.i y.field 1), ("u_sa", v 0), ("u_sb", v 1), ("u_sc", v 2),
         ("u_sd", abcToDq v y.field 0), ("u_sq", abcToDq v y.field 1), ("epsilon", wrap y'.eps), ("u_sup", us)] := by
  have e : dqToAbc (qInv y'.i y.field) y.field = t32 y'.i := by
    unfold dqToAbc; rw [(c32_q_inv y'.i y.field).2]
  refine ⟨_, by simp only [scimFrame, three_l3, Except.map]; rfl, ?_⟩
  simp only [scimNames, List.append_assoc]
  rw [List.zip_append hm]
  simp [l3, l2, e]

/-- The reported dq currents are those of the new state in its own field coordinates only if the current is zero or the field
angle did not change. -/
theorem c34_scim_violated (y y' : ImY) (hi : y'.i ≠ 0) (hf : y.field ≠ y'.field) : qInv y'.i y.field ≠ qInv y'.i y'.field := by
  unfold qInv
  intro h
  rw [q_eq_iff _ hi] at h
  obtain ⟨n, hn⟩ := h
  have h1 := field_range y
  have h2 := field_range y'
  have hp := pi_pos
  have hd : y'.field - y.field = n * (2 * π) := by linarith
  have hz : n = 0 := by
    have a1 : (n : ℝ) < 1 := by
      by_contra hc
      push Not at hc
      have := mul_le_mul_of_nonneg_right hc (by positivity : (0 : ℝ) ≤ 2 * π)
      linarith
    have a2 : (-1 : ℝ) < (n : ℝ) := by
      by_contra hc
      push Not at hc
      have := mul_le_mul_of_nonneg_right hc (by positivity : (0 : ℝ) ≤ 2 * π)
      linarith
    have b1 : n < 1 := by exact_mod_cast a1
    have b2 : -1 < n := by exact_mod_cast a2
    omega
  rw [hz] at hd
  apply hf
  push_cast at hd
  linarith

/-- Squirrel cage motor, `reset`: everything belongs to the state. -/
theorem c34_scim_reset (torque : ImY → ℝ) (y : ImY) (v : Fin 3 → ℝ) (us : ℝ) (mechNames : List String)
    (hm : mechNames.length = y.mech.length) :
    ∃ s, scimReset torque y (l3 v) [us] = .ok s ∧
      (scimNames mechNames).zip s = mechNames.zip y.mech ++
        [("torque", torque y), ("i_sa", t32 y.i 0), ("i_sb", t32 y.i 1), ("i_sc", t32 y.i 2),
         ("i_sd", qInv y.i y.field 0), ("i_sq", qInv y.i y.field 1), ("u_sa", v 0), ("u_sb", v 1), ("u_sc", v 2),
         ("u_sd", abcToDq v y.field 0), ("u_sq", abcToDq v y.field 1), ("epsilon", wrapReset y.eps), ("u_sup", us)] := by
  have e : dqToAbc (qInv y.i y.field) y.field = t32 y.i := by
    unfold dqToAbc; rw [(c32_q_inv y.i y.field).2]
  refine ⟨_, by simp only [scimReset, three_l3, Except.map]; rfl, ?_⟩
  simp only [scimNames, List.append_assoc]
  rw [List.zip_append hm]
  simp [l3, l2, e]

/-- Doubly fed motor, `simulate`: every quantity stands at its name; stator phase currents are those of the new state, rotor
phase currents those of the new state in rotor-fixed coordinates at the *old* rotor angle; dq quantities use the old field
angle. -/
theorem c34_dfim_partial (lm lsigr : ℝ) (torque : ImY → ℝ) (y y' : ImY) (v w : Fin 3 → ℝ) (us : ℝ) (mechNames : List String)
    (hm : mechNames.length = y'.mech.length) :
    ∃ s, (dfimFrame lm lsigr torque).report y y' (l3 v ++ l3 w) [us] = .ok s ∧
      (dfimNames mechNames).zip s = mechNames.zip y'.mech ++
        [("torque", torque y'), ("i_sa", t32 y'.i 0), ("i_sb", t32 y'.i 1), ("i_sc", t32 y'.i 2),
         ("i_sd", qInv y'.i y.field 0), ("i_sq", qInv y'.i y.field 1),
         ("i_ra", t32 (qInv (rotorCurrent lm lsigr y') y.eps) 0), ("i_rb", t32 (qInv (rotorCurrent lm lsigr y') y.eps) 1),
         ("i_rc", t32 (qInv (rotorCurrent lm lsigr y') y.eps) 2),
         ("i_rd", qInv (rotorCurrent lm lsigr y') y.field 0), ("i_rq", qInv (rotorCurrent lm lsigr y') y.field 1),
         ("u_sa", v 0), ("u_sb", v 1), ("u_sc", v 2), ("u_sd", abcToDq v y.field 0), ("u_sq", abcToDq v y.field 1),
         ("u_ra", w 0), ("u_rb", w 1), ("u_rc", w 2), ("u_rd", abcToDq w (y.field - y.eps) 0),
         ("u_rq", abcToDq w (y.field - y.eps) 1), ("epsilon", wrap y'.eps), ("u_sup", us)] := by
  have e1 : ((l3 v ++ l3 w).drop 0).take 3 = l3 v := by simp [l3]
  have e2 : ((l3 v ++ l3 w).drop 3).take 3 = l3 w := by simp [l3]
  have e : dqToAbc (qInv y'.i y.field) y.field = t32 y'.i := by
    unfold dqToAbc; rw [(c32_q_inv y'.i y.field).2]
  have e3 : dqToAbc (qInv (rotorCurrent lm lsigr y') y.field) (y.field - y.eps) =
      t32 (qInv (rotorCurrent lm lsigr y') y.eps) := by
    unfold dqToAbc qInv
    rw [c32_q_add]
    congr 2; ring
  refine ⟨_, by simp only [dfimFrame, e1, e2, three_l3]; rfl, ?_⟩
  simp only [dfimNames, List.append_assoc]
  rw [List.zip_append hm]
  simp [l3, l2, e, e3]

/-- Doubly fed motor, `reset`: the rotor currents are not in the coordinates `simulate` uses. The rotor phase currents are
given in stator-fixed coordinates and the rotor dq currents rotated by field minus rotor angle. -/
theorem c34_dfim_reset_violated (lm lsigr : ℝ) (torque : ImY → ℝ) (y : ImY) (v w : Fin 3 → ℝ) (us : ℝ)
    (mechNames : List String) (hm : mechNames.length = y.mech.length) :
    ∃ s, dfimReset lm lsigr torque y (l3 v ++ l3 w) [us] = .ok s ∧
      (dfimNames mechNames).zip s = mechNames.zip y.mech ++
        [("torque", torque y), ("i_sa", t32 y.i 0), ("i_sb", t32 y.i 1), ("i_sc", t32 y.i 2),
         ("i_sd", qInv y.i y.field 0), ("i_sq", qInv y.i y.field 1),
         ("i_ra", t32 (rotorCurrent lm lsigr y) 0), ("i_rb", t32 (rotorCurrent lm lsigr y) 1),
         ("i_rc", t32 (rotorCurrent lm lsigr y) 2),
         ("i_rd", qInv (rotorCurrent lm lsigr y) (y.field - y.eps) 0),
         ("i_rq", qInv (rotorCurrent lm lsigr y) (y.field - y.eps) 1),
         ("u_sa", v 0), ("u_sb", v 1), ("u_sc", v 2), ("u_sd", abcToDq v y.field 0), ("u_sq", abcToDq v y.field 1),
         ("u_ra", w 0), ("u_rb", w 1), ("u_rc", w 2), ("u_rd", abcToDq w (y.field - y.eps) 0),
         ("u_rq", abcToDq w (y.field - y.eps) 1), ("epsilon", wrapReset y.eps), ("u_sup", us)] ∧
      (rotorCurrent lm lsigr y ≠ 0 → (∀ n : ℤ, y.eps ≠ n * (2 * π)) →
        t32 (rotorCurrent lm lsigr y) ≠ t32 (qInv (rotorCurrent lm lsigr y) y.eps) ∧
        qInv (rotorCurrent lm lsigr y) (y.field - y.eps) ≠ qInv (rotorCurrent lm lsigr y) y.field) := by
  have e1 : ((l3 v ++ l3 w).drop 0).take 3 = l3 v := by simp [l3]
  have e2 : ((l3 v ++ l3 w).drop 3).take 3 = l3 w := by simp [l3]
  obtain ⟨n, hn⟩ := wrapReset_eq y.eps
  have e : dqToAbc (qInv y.i y.field) y.field = t32 y.i := by
    unfold dqToAbc; rw [(c32_q_inv y.i y.field).2]
  have e3 : ∀ x, dqToAbc (qInv (rotorCurrent lm lsigr y) x) x = t32 (rotorCurrent lm lsigr y) := by
    intro x
    unfold dqToAbc; rw [(c32_q_inv _ x).2]
  have e4 : ∀ z, qInv z (y.field - wrapReset y.eps) = qInv z (y.field - y.eps) := by
    intro z
    unfold qInv
    exact q_periodic _ _ _ n (by rw [hn]; ring)
  refine ⟨_, by simp only [dfimReset, e1, e2, three_l3]; rfl, ?_, ?_⟩
  · simp only [dfimNames, List.append_assoc]
    rw [List.zip_append hm]
    have e5 : dqToAbc (qInv (rotorCurrent lm lsigr y) (y.field - y.eps)) (y.field - wrapReset y.eps) =
        t32 (rotorCurrent lm lsigr y) := by
      rw [← e4]; exact e3 _
    simp [l3, l2, e, e4, e5, wrapReset_field, abcToDq]
  · intro hi he
    constructor
    · rw [Ne, t32_inj]
      have h0 := q_zero (rotorCurrent lm lsigr y)
      intro hc
      unfold qInv at hc
      nth_rewrite 1 [← h0] at hc
      rw [q_eq_iff _ hi] at hc
      obtain ⟨m, hm⟩ := hc
      exact he m (by linarith)
    · intro hc
      unfold qInv at hc
      rw [q_eq_iff _ hi] at hc
      obtain ⟨m, hm⟩ := hc
      exact he m (by linarith)

/-- The currents handed to the rotor converter are in stator-fixed coordinates as well, unlike the rotor phase currents that
are reported. -/
theorem c34_dfim_converter_violated (lm lsigr : ℝ) (torque : ImY → ℝ) (y : ImY) (hi : rotorCurrent lm lsigr y ≠ 0)
    (he : ∀ n : ℤ, y.eps ≠ n * (2 * π)) :
    ((dfimFrame lm lsigr torque).iIn y).drop 3 = l3 (t32 (rotorCurrent lm lsigr y)) ∧
    l3 (t32 (rotorCurrent lm lsigr y)) ≠ l3 (t32 (qInv (rotorCurrent lm lsigr y) y.eps)) := by
  obtain ⟨s, _, _, h⟩ := c34_dfim_reset_violated lm lsigr torque y 0 0 0 (y.mech.map fun _ => "") (by simp)
  refine ⟨by simp [dfimFrame, l3], ?_⟩
  intro hc
  apply (h hi he).1
  simp only [l3, List.cons.injEq, and_true] at hc
  funext i
  fin_cases i
  · exact hc.1
  · exact hc.2.1
  · exact hc.2.2

/-- The index lists of the synchronous systems pick load states, currents and angle out of the solver's array. -/
theorem c34_sync_indices {K : Type} (mech cur : List K) (eps : K) (hm : mech ≠ []) (hc : cur ≠ []) :
    pick (mech ++ cur ++ [eps]) (idxLoad mech.length) = mech.map some ∧
    pick (mech ++ cur ++ [eps]) (idxSyncCurrents mech.length cur.length) = cur.map some ∧
    (mech ++ cur ++ [eps])[idxSyncEps mech.length cur.length]? = some eps ∧
    pick (mech ++ cur ++ [eps]) (idxSyncMotor mech.length cur.length) = (cur ++ [eps]).map some := by
  have hl : 0 < mech.length := List.length_pos_of_ne_nil hm
  have hl2 : 0 < cur.length := List.length_pos_of_ne_nil hc
  have e1 : (List.range mech.length).getLastD 0 + 1 = mech.length := by
    obtain ⟨n, hn⟩ := Nat.exists_eq_succ_of_ne_zero hl.ne'
    rw [hn, List.range_succ]; simp
  have e2 : ((List.range cur.length).map (mech.length + ·)).getLastD 0 + 1 = mech.length + cur.length := by
    obtain ⟨n, hn⟩ := Nat.exists_eq_succ_of_ne_zero hl2.ne'
    rw [hn, List.range_succ]; simp; omega
  have p1 : pick (mech ++ cur ++ [eps]) (List.range mech.length) = mech.map some := by
    apply List.ext_getElem
    · simp [pick]
    · intro i h1 h2
      simp only [List.length_map] at h2
      simp only [pick, List.getElem_map, List.getElem_range, List.append_assoc]
      rw [List.getElem?_append_left h2, List.getElem?_eq_getElem h2]
  have p2 : pick (mech ++ cur ++ [eps]) ((List.range cur.length).map (mech.length + ·)) = cur.map some := by
    apply List.ext_getElem
    · simp [pick]
    · intro i h1 h2
      simp only [List.length_map] at h2
      simp only [pick, List.getElem_map, List.getElem_range, List.append_assoc]
      rw [List.getElem?_append_right (by omega), Nat.add_sub_cancel_left, List.getElem?_append_left h2,
        List.getElem?_eq_getElem h2]
  have p3 : (mech ++ cur ++ [eps])[mech.length + cur.length]? = some eps := by
    rw [List.getElem?_append_right (by simp)]
    simp
  refine ⟨p1, ?_, ?_, ?_⟩
  · simp only [idxSyncCurrents, idxSyncMotor, idxCurrents, idxLoad, e1, List.dropLast_concat]
    exact p2
  · simp only [idxSyncEps, idxSyncMotor, idxCurrents, idxLoad, e1, e2, List.getLastD_concat]
    exact p3
  · simp only [idxSyncMotor, idxCurrents, idxLoad, e1, e2]
    unfold pick at p2 ⊢
    rw [List.map_append, p2]
    simp

/-- The same for the induction machines: currents, fluxes, angle. -/
theorem c34_im_indices {K : Type} (mech : List K) (i0 i1 f0 f1 eps : K) (hm : mech ≠ []) :
    pick (mech ++ [i0, i1, f0, f1, eps]) (idxLoad mech.length) = mech.map some ∧
    pick (mech ++ [i0, i1, f0, f1, eps]) (idxImCurrents mech.length) = [some i0, some i1] ∧
    pick (mech ++ [i0, i1, f0, f1, eps]) (idxImFlux mech.length) = [some f0, some f1] ∧
    (mech ++ [i0, i1, f0, f1, eps])[(idxImMotor mech.length).getLastD 0]? = some eps ∧
    pick (mech ++ [i0, i1, f0, f1, eps]) (idxImMotor mech.length) = [some i0, some i1, some f0, some f1, some eps] := by
  have hl : 0 < mech.length := List.length_pos_of_ne_nil hm
  have e1 : (List.range mech.length).getLastD 0 + 1 = mech.length := by
    obtain ⟨n, hn⟩ := Nat.exists_eq_succ_of_ne_zero hl.ne'
    rw [hn, List.range_succ]; simp
  have hmot : idxImMotor mech.length = [mech.length, mech.length + 1, mech.length + 2, mech.length + 3, mech.length + 4] := by
    simp only [idxImMotor, idxCurrents, idxLoad, e1]
    rfl
  have g : ∀ (k : ℕ) , (mech ++ [i0, i1, f0, f1, eps])[mech.length + k]? = [i0, i1, f0, f1, eps][k]? := by
    intro k
    rw [List.getElem?_append_right (by omega), Nat.add_sub_cancel_left]
  have g0 := g 0
  rw [Nat.add_zero] at g0
  refine ⟨?_, ?_, ?_, ?_, ?_⟩
  · apply List.ext_getElem
    · simp [pick, idxLoad]
    · intro i h1 h2
      simp only [List.length_map] at h2
      simp only [pick, idxLoad, List.getElem_map, List.getElem_range]
      rw [List.getElem?_append_left h2, List.getElem?_eq_getElem h2]
  all_goals simp [idxImCurrents, idxImFlux, hmot, pick]

/-- Switching times with interlocking meet the hypotheses of `c34_eesm_interlock_violated`. -/
example : ∃ p : Parts ℝ EesmY (List ℝ) (List ℝ) Unit Unit Unit,
    (p.setAction () [1] 0).2 = .ok (1 / 4 :: 1 :: []) ∧ (∀ c i, ∃ is, p.iSup c i = .ok is) ∧
    ∀ c i t, ∃ u, (p.convert c i t).2 = .ok u :=
  ⟨{ solverT := fun _ => 0, solverY := fun _ => ⟨[0], 0, 0, 0⟩, integrate := fun _ _ _ => (), setInitial := fun _ _ _ => (),
     setAction := fun _ _ t => ((), .ok [t + 1 / 4, t + 1]), convert := fun _ _ _ => ((), .ok [1, 0, 0, 1]),
     iSup := fun _ _ => .ok 0, convReset := fun _ => ((), []), getVoltage := fun _ _ _ => ((), [1]),
     supplyReset := fun _ => ((), [1]) }, by norm_num, fun _ _ => ⟨_, rfl⟩, fun _ _ _ => ⟨_, rfl⟩⟩

/-- A step at constant speed: the angle moves from 0 to π/2, so the phase currents of `simulate` are wrong. -/
example : ∀ n : ℤ, (0 : ℝ) ≠ π / 2 + n * (2 * π) := by
  intro n h
  have hp := pi_pos
  have : (n : ℝ) = -1 / 4 := by
    have : (n : ℝ) * (2 * π) = -1 / 4 * (2 * π) := by linarith
    exact mul_right_cancel₀ (by positivity) this
  have h4 : (4 * n : ℤ) = -1 := by
    have : (4 * n : ℝ) = -1 := by linarith
    exact_mod_cast this
  omega

end report

/-! ## C60: the system's right-hand side and Jacobian -/

section ode

variable {n m : ℕ} {U : Type}

/-- The scratch array of earlier calls, which is overwritten and returned, has no influence on the result. -/
theorem c60_scratch {K : Type} [Field K] (mechOde : K → (Fin n → K) → K → Fin n → K) (torque : (Fin m → K) → K)
    (elOde : (Fin m → K) → U → K → Fin m → K) (k : Fin n) (old : Fin (n + m) → K) (t : K) (s : Fin (n + m) → K) (u : U) :
    systemEquation mechOde torque elOde k (some old) t s u = systemEquation mechOde torque elOde k none t s u := by
  funext i
  refine Fin.addCases (fun a => ?_) (fun a => ?_) i
  · simp [systemEquation]
  · simp [systemEquation]

/-- The load's part of the right-hand side depends on the load states and the torque only, the motor's part on the motor
states, the input and the speed only. -/
theorem c60_separate {K : Type} [Field K] (mechOde : K → (Fin n → K) → K → Fin n → K) (torque : (Fin m → K) → K)
    (elOde : (Fin m → K) → U → K → Fin m → K) (k : Fin n) (sc : Option (Fin (n + m) → K)) (t : K)
    (load : Fin n → K) (motor : Fin m → K) (u : U) :
    (∀ i, systemEquation mechOde torque elOde k sc t (Fin.append load motor) u (Fin.castAdd m i) =
      mechOde t load (torque motor) i) ∧
    ∀ i, systemEquation mechOde torque elOde k sc t (Fin.append load motor) u (Fin.natAdd n i) =
      elOde motor u (load k) i := by
  cases sc with
  | none => simp [systemEquation]
  | some old => rw [c60_scratch]; simp [systemEquation]

/-- If the load's and the motor's Jacobians are right, so is the system's: it has the partial derivatives of the system
equation. -/
theorem c60_jacobian (mechOde : ℝ → (Fin n → ℝ) → ℝ → Fin n → ℝ) (torque : (Fin m → ℝ) → ℝ)
    (elOde : (Fin m → ℝ) → U → ℝ → Fin m → ℝ) (k : Fin n) (sc : Option (Fin (n + m) → ℝ)) (t : ℝ) (load : Fin n → ℝ)
    (motor : Fin m → ℝ) (u : U) (loadJac : Fin n → Fin n → ℝ) (loadOverTorque : Fin n → ℝ) (motorJac : Fin m → Fin m → ℝ)
    (elOverOmega torqueOverEl : Fin m → ℝ) (hl : IsPartials (fun l => mechOde t l (torque motor)) loadJac load)
    (ht : ∀ i, HasDerivAt (fun T => mechOde t load T i) (loadOverTorque i) (torque motor))
    (hm : IsMotorJacobian (fun s w => elOde s u w) torque motorJac elOverOmega torqueOverEl motor (load k)) :
    IsPartials (fun s => systemEquation mechOde torque elOde k sc t s u)
      (systemJacobian loadJac loadOverTorque motorJac elOverOmega torqueOverEl k) (Fin.append load motor) := by
  have hsc : ∀ s, systemEquation mechOde torque elOde k sc t s u = systemEquation mechOde torque elOde k none t s u := by
    intro s
    cases sc with
    | none => rfl
    | some old => exact c60_scratch _ _ _ _ _ _ _ _
  simp only [hsc]
  have u1 : ∀ (j : Fin n) (x : ℝ), Function.update (Fin.append load motor) (Fin.castAdd m j) x =
      Fin.append (Function.update load j x) motor := by
    intro j x
    funext i
    refine Fin.addCases (fun a => ?_) (fun a => ?_) i
    · simp [Function.update_apply]
    · rw [Function.update_of_ne]
      · simp
      · intro h; have := congrArg Fin.val h; simp at this; omega
  have u2 : ∀ (j : Fin m) (x : ℝ), Function.update (Fin.append load motor) (Fin.natAdd n j) x =
      Fin.append load (Function.update motor j x) := by
    intro j x
    funext i
    refine Fin.addCases (fun a => ?_) (fun a => ?_) i
    · rw [Function.update_of_ne]
      · simp
      · intro h; have := congrArg Fin.val h; simp at this; omega
    · simp [Function.update_apply]
  intro i j
  induction j using Fin.addCases with
  | left b =>
    simp only [u1, Fin.append_left]
    induction i using Fin.addCases with
    | left a =>
      simp only [(c60_separate mechOde torque elOde k none t _ _ u).1]
      have h := hl a b
      convert h using 1
      simp [systemJacobian]
    | right a =>
      simp only [(c60_separate mechOde torque elOde k none t _ _ u).2]
      by_cases hb : b = k
      · subst hb
        have h := hm.speed a
        simp only [Function.update_self]
        convert h using 1
        simp [systemJacobian]
      · have hk : ∀ x, Function.update load b x k = load k := fun x => Function.update_of_ne (Ne.symm hb) _ _
        simp only [hk]
        have e : systemJacobian loadJac loadOverTorque motorJac elOverOmega torqueOverEl k (Fin.natAdd n a) (Fin.castAdd m b)
            = 0 := by
          have : b.val ≠ k.val := fun h => hb (Fin.ext h)
          simp [systemJacobian, this]
        rw [e]
        exact hasDerivAt_const _ _
  | right b =>
    simp only [u2, Fin.append_right]
    induction i using Fin.addCases with
    | left a =>
      simp only [(c60_separate mechOde torque elOde k none t _ _ u).1]
      have h1 := hm.torque b
      have h2 := ht a
      have e : torque (Function.update motor b (motor b)) = torque motor := by rw [Function.update_eq_self]
      rw [← e] at h2
      have e2 : systemJacobian loadJac loadOverTorque motorJac elOverOmega torqueOverEl k (Fin.castAdd m a) (Fin.natAdd n b)
          = loadOverTorque a * torqueOverEl b := by simp [systemJacobian]
      rw [e2]
      exact HasDerivAt.comp (motor b) h2 h1
    | right a =>
      simp only [(c60_separate mechOde torque elOde k none t _ _ u).2]
      have h := hm.states a b
      convert h using 1
      have : ¬ (n + b.val = k.val) := by have := k.2; omega
      simp [systemJacobian, this]

/-- So it is right for every motor whose Jacobian is (`c27_…`) with a polynomial load, away from the switching speeds of the
load's friction. -/
theorem c60_poly (torque : (Fin m → ℝ) → ℝ) (elOde : (Fin m → ℝ) → U → ℝ → Fin m → ℝ) {a b c j tau : ℝ} {rs : List ℝ}
    (h : PolyParams a b c j tau rs) (sc : Option (Fin (1 + m) → ℝ)) (t w : ℝ) (motor : Fin m → ℝ) (u : U)
    (hw : |w| ≠ a * tau / (j + rs.sum)) (J : Jac ℝ m)
    (hm : IsMotorJacobian (fun s w => elOde s u w) torque J.dx J.dw J.dT motor w) :
    IsPartials (fun s => systemEquation (n := 1) (fun t l T => ![(polyOf a b c j tau rs).mechanicalOde t (l 0) T])
        torque elOde 0 sc t s u)
      (systemJacobian (fun _ _ => ((polyOf a b c j tau rs).mechanicalJacobian t w (torque motor)).1)
        (fun _ => ((polyOf a b c j tau rs).mechanicalJacobian t w (torque motor)).2) J.dx J.dw J.dT 0)
      (Fin.append ![w] motor) := by
  apply c60_jacobian
  · intro x y
    fin_cases x; fin_cases y
    simpa using c27_load_partial h hw
  · intro x
    fin_cases x
    simpa using c27_load_torque _
  · simpa using hm

/-- A permanently excited DC motor. -/
example (mp : PermExParams ℝ) (t w : ℝ) (hw : |w| ≠ 1 * 1 / (2 + 3)) (i u : Fin 1 → ℝ) (sc : Option (Fin (1 + 1) → ℝ)) :
    IsPartials (fun s => systemEquation (n := 1) (fun t l T => ![(polyOf 1 1 0 2 1 [3]).mechanicalOde t (l 0) T])
        (permExTorque mp) (permExOde mp) 0 sc t s u)
      (systemJacobian (fun _ _ => ((polyOf (1 : ℝ) 1 0 2 1 [3]).mechanicalJacobian t w (permExTorque mp i)).1)
        (fun _ => ((polyOf (1 : ℝ) 1 0 2 1 [3]).mechanicalJacobian t w (permExTorque mp i)).2)
        (permExJacobian mp i w).dx (permExJacobian mp i w).dw (permExJacobian mp i w).dT 0) (Fin.append ![w] i) :=
  c60_poly _ _ (by constructor <;> simp) sc t w i u (by simpa using hw) _ (c27_permex mp i u w)

end ode

/-! ## C70: dq control -/

section dq

open GEM.Conv

/-- Components of a drive with a continuous B6 bridge and a supply of constant voltage. -/
structure B6Drive {Y U S P : Type} (p : Parts ℝ Y U (List ℝ) S (CConv ℝ) P) (us : ℝ) : Prop where
  set : ∀ c a t, p.setAction c a t = c.setAction a t
  conv : ∀ c i t, p.convert c i t = (c, c.convert i t)
  sup : ∀ c i, p.iSup c i = c.iSup i
  volt : ∀ s t i, (p.getVoltage s t i).2 = [us]

/-- The half bridges have no interlocking time and the same sampling time, as after construction. -/
structure Plain (c : CB6 ℝ) : Prop where
  il0 : c.s0.il = 0
  il1 : c.s1.il = 0
  il2 : c.s2.il = 0
  t1 : c.s1.tau = c.s0.tau
  t2 : c.s2.tau = c.s0.tau

private theorem sum3 (c : CB6 ℝ) (v : Fin 3 → ℝ) : ∃ x, c.iSup (l3 v) = .ok x := by
  simp [CB6.iSup, l3, sumZip, CTwo.iSup]

/-- One step of such a drive, with the phase actions `a`. -/
theorem b6_step {Y U S P : Type} (p : Parts ℝ Y U (List ℝ) S (CConv ℝ) P) (us : ℝ) (hp : B6Drive p us)
    (f : Frame ℝ Y U (List ℝ)) (tau : ℝ) (limits : List ℝ) (st : St ℝ S (CConv ℝ) P) (c : CB6 ℝ) (hc : st.conv = .b6 c)
    (hpl : Plain c) (act : List ℝ) (a i : Fin 3 → ℝ) (ha : f.action (p.solverY st.solver) act = l3 a)
    (hi : f.iIn (p.solverY st.solver) = l3 i) (v : U)
    (hv : f.lastU (p.solverY st.solver) (l3 fun k => (clip (1 / 2 * (a k + 1)) 0 1 - 1 / 2) * us) = .ok v) :
    (simulate p f tau limits st act).1.solver = p.integrate st.solver v (st.t + tau) ∧
    (simulate p f tau limits st act).2 =
      (f.report (p.solverY st.solver) (p.solverY (p.integrate st.solver v (st.t + tau)))
        (l3 fun k => (clip (1 / 2 * (a k + 1)) 0 1 - 1 / 2) * us) [us]).bind (fun s => divLimits s limits) ∧
    (simulate p f tau limits st act).1.t = p.solverT (simulate p f tau limits st act).1.solver ∧
    ∃ c', (simulate p f tau limits st act).1.conv = .b6 c' ∧ Plain c' := by
  obtain ⟨i0, i1, i2, e1, e2⟩ := hpl
  have hcl : ∀ x : ℝ, clip (clip x 0 1) 0 1 = clip x 0 1 := by
    intro x
    have := clip_mem (x := x) (zero_le_one (α := ℝ))
    exact clip_of_mem this.1 this.2
  have hs : sortedSet [st.t + c.s0.tau, st.t + c.s1.tau, st.t + c.s2.tau] = [st.t + c.s0.tau] := by
    rw [e1, e2]; simp [sortedSet]
  have hset : (CConv.b6 c).setAction (l3 a) st.t = (.b6 { c with
      s0 := { c.s0 with action := clip (1 / 2 * (a 0 + 1)) 0 1 }, s1 := { c.s1 with action := clip (1 / 2 * (a 1 + 1)) 0 1 },
      s2 := { c.s2 with action := clip (1 / 2 * (a 2 + 1)) 0 1 } }, .ok [st.t + c.s0.tau]) := by
    simp [CConv.setAction, CB6.setAction, l3, CTwo.setAction, hs]
  obtain ⟨x, hx⟩ := sum3 ({ c with
      s0 := { c.s0 with action := clip (1 / 2 * (a 0 + 1)) 0 1 }, s1 := { c.s1 with action := clip (1 / 2 * (a 1 + 1)) 0 1 },
      s2 := { c.s2 with action := clip (1 / 2 * (a 2 + 1)) 0 1 } }) i
  have hcv : ∀ t, CB6.convert ({ c with
      s0 := { c.s0 with action := clip (1 / 2 * (a 0 + 1)) 0 1 }, s1 := { c.s1 with action := clip (1 / 2 * (a 1 + 1)) 0 1 },
      s2 := { c.s2 with action := clip (1 / 2 * (a 2 + 1)) 0 1 } }) (l3 i) t =
      .ok (l3 fun k => clip (1 / 2 * (a k + 1)) 0 1 - 1 / 2) := by
    intro t
    simp only [CB6.convert, l3, CTwo.convert, CTwo.interlock, i0, i1, i2, mul_zero, sub_zero, hcl]
  have hpr : products (l3 fun k => clip (1 / 2 * (a k + 1)) 0 1 - 1 / 2) [us] =
      l3 fun k => (clip (1 / 2 * (a k + 1)) 0 1 - 1 / 2) * us := by simp [products, l3]
  unfold simulate
  simp only [ha, hc, hp.set, hset]
  simp only [List.dropLast_singleton, pieces, Call.bind]
  unfold piece
  simp only [hi, hp.sup, CConv.iSup, hx, hp.conv, CConv.convert, hcv, hp.volt, hpr, hv]
  exact ⟨trivial, trivial, trivial, _, rfl, i0, i1, i2, e1, e2⟩

/-- A phase action never exceeds the length of the dq action. -/
private theorem t32_bound (v : Fin 2 → ℝ) (h : v 0 ^ 2 + v 1 ^ 2 ≤ 1) (k : Fin 3) : -1 ≤ t32 v k ∧ t32 v k ≤ 1 := by
  have h3 : √3 ^ 2 = 3 := sq_sqrt (by norm_num)
  rw [← abs_le, ← sq_le_one_iff_abs_le_one]
  have e0 : t32 v 0 = v 0 := by simp [t32, Matrix.mulVec, dotProduct, Fin.sum_univ_succ]
  have e1 : t32 v 1 = -(1 / 2) * v 0 + 1 / 2 * √3 * v 1 := by simp [t32, Matrix.mulVec, dotProduct, Fin.sum_univ_succ]
  have e2 : t32 v 2 = -(1 / 2) * v 0 + -(1 / 2 * √3) * v 1 := by
    simp [t32, Matrix.mulVec, dotProduct, Fin.sum_univ_succ]
  fin_cases k
  · show t32 v 0 ^ 2 ≤ 1
    rw [e0]; nlinarith [sq_nonneg (v 1)]
  · show t32 v 1 ^ 2 ≤ 1
    rw [e1]
    nlinarith [sq_nonneg (√3 * v 0 + v 1)]
  · show t32 v 2 ^ 2 ≤ 1
    rw [e2]
    nlinarith [sq_nonneg (√3 * v 0 - v 1)]

private theorem duty (us : ℝ) (v : Fin 2 → ℝ) (h : v 0 ^ 2 + v 1 ^ 2 ≤ 1) :
    (fun k => (clip (1 / 2 * (t32 v k + 1)) 0 1 - 1 / 2) * us) = t32 (us / 2 * v 0 |> fun x => ![x, us / 2 * v 1]) := by
  funext k
  obtain ⟨h1, h2⟩ := t32_bound v h k
  rw [clip_of_mem (by linarith) (by linarith)]
  fin_cases k <;> simp [t32, Matrix.mulVec, dotProduct, Fin.sum_univ_succ] <;> ring

private theorem q_scale (us d q' eps : ℝ) : ![us / 2 * q ![d, q'] eps 0, us / 2 * q ![d, q'] eps 1] =
    q ![us / 2 * d, us / 2 * q'] eps := by
  funext i
  fin_cases i <;> simp [q] <;> ring

/-- In dq control of a synchronous machine an action of length at most one puts exactly `u_sup/2` times this action on the
machine in dq coordinates, at every rotor angle, and this is what is reported as `u_sd`, `u_sq`. -/
theorem c70_sync_partial {S P : Type} (p : Parts ℝ SyncY (Fin 2 → ℝ) (List ℝ) S (CConv ℝ) P) (us : ℝ) (hp : B6Drive p us)
    (torque : SyncY → ℝ) (tau : ℝ) (limits : List ℝ) (st : St ℝ S (CConv ℝ) P) (c : CB6 ℝ) (hc : st.conv = .b6 c)
    (hpl : Plain c) (d q : ℝ) (h : d ^ 2 + q ^ 2 ≤ 1) :
    (simulate p (syncFrame torque true) tau limits st [d, q]).1.solver =
      p.integrate st.solver ![us / 2 * d, us / 2 * q] (st.t + tau) ∧
    ∃ s, (simulate p (syncFrame torque true) tau limits st [d, q]).2 = divLimits s limits ∧
      (s.drop ((p.solverY (p.integrate st.solver ![us / 2 * d, us / 2 * q] (st.t + tau))).mech.length + 9)).take 2 =
        [us / 2 * d, us / 2 * q] := by
  set y := p.solverY st.solver with hy
  have hl : (GEM.Motor.q ![d, q] y.eps 0) ^ 2 + (GEM.Motor.q ![d, q] y.eps 1) ^ 2 ≤ 1 := by
    rw [c32_q_length]; simpa using h
  have hdu := duty us _ hl
  have hsc := q_scale us d q y.eps
  simp only [] at hdu
  rw [hsc] at hdu
  have hv : abcToDq (t32 (GEM.Motor.q ![us / 2 * d, us / 2 * q] y.eps)) y.eps = ![us / 2 * d, us / 2 * q] := by
    unfold abcToDq
    rw [c32_t23_t32, (c32_q_inv _ _).1]
  obtain ⟨h1, h2, -⟩ := b6_step p us hp (syncFrame torque true) tau limits st c hc hpl [d, q]
    (t32 (GEM.Motor.q ![d, q] y.eps)) (dqToAbc y.i y.eps) rfl rfl ![us / 2 * d, us / 2 * q]
    (by simp only [hdu, syncFrame, three_l3, Except.map]; rw [← hy, hv])
  refine ⟨h1, ?_⟩
  rw [h2, hdu]
  refine ⟨_, by simp only [syncFrame, three_l3, Except.map, Except.bind]; rfl, ?_⟩
  rw [← hy, hv]
  simp only [List.append_assoc]
  rw [← List.drop_drop, List.drop_left]
  simp [l3, l2]

/-- The same for the squirrel cage motor, in coordinates of the rotor flux. -/
theorem c70_scim_partial {S P : Type} (p : Parts ℝ ImY (Fin 2 → ℝ) (List ℝ) S (CConv ℝ) P) (us : ℝ) (hp : B6Drive p us)
    (torque : ImY → ℝ) (tau : ℝ) (limits : List ℝ) (st : St ℝ S (CConv ℝ) P) (c : CB6 ℝ) (hc : st.conv = .b6 c)
    (hpl : Plain c) (d q : ℝ) (h : d ^ 2 + q ^ 2 ≤ 1) :
    (simulate p (scimFrame torque true) tau limits st [d, q]).1.solver =
      p.integrate st.solver (GEM.Motor.q ![us / 2 * d, us / 2 * q] (p.solverY st.solver).field) (st.t + tau) ∧
    ∃ s, (simulate p (scimFrame torque true) tau limits st [d, q]).2 = divLimits s limits ∧
      (s.drop ((p.solverY (simulate p (scimFrame torque true) tau limits st [d, q]).1.solver).mech.length + 9)).take 2 =
        [us / 2 * d, us / 2 * q] := by
  set y := p.solverY st.solver with hy
  have hl : (GEM.Motor.q ![d, q] y.field 0) ^ 2 + (GEM.Motor.q ![d, q] y.field 1) ^ 2 ≤ 1 := by
    rw [c32_q_length]; simpa using h
  have hdu := duty us _ hl
  have hsc := q_scale us d q y.field
  simp only [] at hdu
  rw [hsc] at hdu
  have hv : abcToDq (t32 (GEM.Motor.q ![us / 2 * d, us / 2 * q] y.field)) y.field = ![us / 2 * d, us / 2 * q] := by
    unfold abcToDq
    rw [c32_t23_t32, (c32_q_inv _ _).1]
  obtain ⟨h1, h2, -⟩ := b6_step p us hp (scimFrame torque true) tau limits st c hc hpl [d, q]
    (t32 (GEM.Motor.q ![d, q] y.field)) (t32 y.i) rfl rfl (GEM.Motor.q ![us / 2 * d, us / 2 * q] y.field)
    (by simp only [hdu, scimFrame, three_l3, Except.map]; rw [c32_t23_t32])
  refine ⟨h1, ?_⟩
  rw [h1, h2, hdu]
  refine ⟨_, by simp only [scimFrame, three_l3, Except.map, Except.bind]; rfl, ?_⟩
  rw [← hy, hv]
  simp only [List.append_assoc]
  rw [← List.drop_drop, List.drop_left]
  simp [l3, l2]

/-- For every longer action of the action space `[-1,1]²` there is a rotor angle at which the bridge clips and the machine
gets another voltage. -/
theorem c70_outside_violated {S P : Type} (p : Parts ℝ SyncY (Fin 2 → ℝ) (List ℝ) S (CConv ℝ) P) (us : ℝ) (hus : us ≠ 0)
    (hp : B6Drive p us) (torque : SyncY → ℝ) (tau : ℝ) (limits : List ℝ) (c : CB6 ℝ) (hpl : Plain c) (d q : ℝ)
    (hd : |d| ≤ 1) (hq : |q| ≤ 1) (h : 1 < d ^ 2 + q ^ 2) :
    ∃ eps : ℝ, ∀ (st : St ℝ S (CConv ℝ) P), st.conv = .b6 c → (p.solverY st.solver).eps = eps →
      ∃ v, (simulate p (syncFrame torque true) tau limits st [d, q]).1.solver = p.integrate st.solver v (st.t + tau) ∧
        v ≠ ![us / 2 * d, us / 2 * q] := by
  set z : ℂ := ⟨d, q⟩ with hz
  set r := ‖z‖ with hr
  have hr2 : r ^ 2 = d ^ 2 + q ^ 2 := by
    rw [hr, Complex.sq_norm, Complex.normSq_apply]; simp [hz]; ring
  have hr0 : 0 ≤ r := norm_nonneg z
  have hr1 : 1 < r := by nlinarith
  have hr3 : r < 2 := by
    have a1 : d ^ 2 ≤ 1 := (sq_le_one_iff_abs_le_one d).2 hd
    have a2 : q ^ 2 ≤ 1 := (sq_le_one_iff_abs_le_one q).2 hq
    nlinarith
  have hzne : z ≠ 0 := by
    intro hc
    rw [hc] at hr
    simp at hr
    linarith
  have hcos : cos z.arg * r = d := by
    have := Complex.cos_arg hzne
    rw [this, ← hr]; field_simp; rfl
  have hsin : sin z.arg * r = q := by
    have := Complex.sin_arg z
    rw [this, ← hr]; field_simp; rfl
  have hrot : GEM.Motor.q ![d, q] (-z.arg) = ![r, 0] := by
    have hs := sin_sq_add_cos_sq z.arg
    funext i
    fin_cases i
    · simp only [GEM.Motor.q, cos_neg, sin_neg]
      simp
      rw [← hcos, ← hsin]
      linear_combination r * hs
    · simp only [GEM.Motor.q, cos_neg, sin_neg]
      simp
      rw [← hcos, ← hsin]
      ring
  refine ⟨-z.arg, fun st hc he => ?_⟩
  have hab : t32 ![r, 0] = ![r, -(r / 2), -(r / 2)] := by
    funext k
    fin_cases k <;> simp [t32, Matrix.mulVec, dotProduct, Fin.sum_univ_succ] <;> ring
  have c1 : clip (1 / 2 * (r + 1)) 0 1 = 1 := by
    unfold clip
    rw [max_eq_left (by linarith), min_eq_right (by linarith)]
  have c2 : clip (1 / 2 * (-(r / 2) + 1)) 0 1 = 1 / 2 * (-(r / 2) + 1) := clip_of_mem (by linarith) (by linarith)
  have hu : (fun k => (clip (1 / 2 * ((![r, -(r / 2), -(r / 2)] : Fin 3 → ℝ) k + 1)) 0 1 - 1 / 2) * us) =
      ![us / 2, -(us * r / 4), -(us * r / 4)] := by
    funext k
    fin_cases k <;> simp only [Fin.isValue, Fin.zero_eta, Fin.mk_one, Fin.reduceFinMk, Matrix.cons_val, c1, c2] <;> ring
  refine ⟨abcToDq ![us / 2, -(us * r / 4), -(us * r / 4)] (-z.arg), ?_, ?_⟩
  · refine (b6_step p us hp (syncFrame torque true) tau limits st c hc hpl [d, q] ![r, -(r / 2), -(r / 2)]
      (dqToAbc (p.solverY st.solver).i (p.solverY st.solver).eps) ?_ rfl _ ?_).1
    · simp only [syncFrame, if_true, dqToAbc]
      rw [he, hrot, hab]
    · rw [hu]
      simp only [syncFrame, three_l3, Except.map]
      rw [he]
  · intro hc
    have hn := c32_q_length (t23 ![us / 2, -(us * r / 4), -(us * r / 4)]) (- -z.arg)
    have hc0 := congrFun hc 0
    have hc1 := congrFun hc 1
    unfold abcToDq qInv at hc0 hc1
    rw [hc0, hc1] at hn
    have e0 : t23 ![us / 2, -(us * r / 4), -(us * r / 4)] 0 = us * (2 + r) / 6 := by
      simp [t23, Matrix.mulVec, dotProduct, Fin.sum_univ_succ]; ring
    have e1 : t23 ![us / 2, -(us * r / 4), -(us * r / 4)] 1 = 0 := by
      simp [t23, Matrix.mulVec, dotProduct, Fin.sum_univ_succ]
    rw [e0, e1] at hn
    simp only [Matrix.cons_val_zero, Matrix.cons_val_one] at hn
    have : us ^ 2 * (r ^ 2 * 9 - (2 + r) ^ 2) = 0 := by
      rw [hr2]; linear_combination 36 * hn
    have hz2 := (mul_eq_zero.1 this).resolve_left (pow_ne_zero 2 hus)
    nlinarith

/-- Such drives exist: a B6 bridge after construction. -/
example (tau : ℝ) : Plain (CB6.new tau 0) := ⟨rfl, rfl, rfl, rfl, rfl⟩

end dq

/-! ## C71: supplies and systems -/

section supplies

/-- A supply with one voltage fits all systems with a three-phase bridge: `reset` succeeds for limits of the right number. -/
theorem c71_sync_partial {S C P U : Type} (p : Parts ℝ SyncY U (List ℝ) S C P) (torque : SyncY → ℝ) (limits : List ℝ)
    (st : St ℝ S C P) (y : SyncY) (us : ℝ) (hus : (p.supplyReset st.supply).2 = [us]) (v : Fin 3 → ℝ)
    (hv : (p.convReset st.conv).2 = l3 v) (hl : limits.length = y.mech.length + 13) :
    ∃ s, (reset p (syncReset torque) limits st y).2 = .ok s ∧ s.length = limits.length := by
  have hpr : products (l3 v) [us] = l3 fun k => v k * us := by simp [products, l3]
  simp only [reset, hus, hv, hpr, syncReset, three_l3, Except.map, Except.bind, divLimits]
  rw [if_pos (by simp [l3, l2, hl])]
  exact ⟨_, rfl, by simp [l3, l2, hl]⟩

/-- A three-phase supply fits none of them: `reset` and every call of `simulate` that gets as far as the voltages raise. -/
theorem c71_sync_violated {S C P : Type} (p : Parts ℝ SyncY (Fin 2 → ℝ) (List ℝ) S C P) (torque : SyncY → ℝ) (dq : Bool)
    (tau : ℝ) (limits : List ℝ) (st : St ℝ S C P) (y : SyncY) (hus : ∀ s, (p.supplyReset s).2.length = 3)
    (hg : ∀ s t i, (p.getVoltage s t i).2.length = 3) (hv : ∀ c, (p.convReset c).2.length = 3)
    (hc : ∀ c i t u, (p.convert c i t).2 = .ok u → u.length = 3) (a : List ℝ) :
    (reset p (syncReset torque) limits st y).2 = .error .value ∧
    ∃ e, (simulate p (syncFrame torque dq) tau limits st a).2 = .error e := by
  have hlen : ∀ u us : List ℝ, u.length = 3 → us.length = 3 → (products u us).length = 9 := by
    intro u us h1 h2
    obtain ⟨a, b, c, rfl⟩ := List.length_eq_three.1 h1
    simp [products, h2]
  have h3 : ∀ u : List ℝ, u.length = 9 → three u = .error .value := by
    intro u h
    unfold three
    split
    · simp at h
    · rfl
  constructor
  · simp only [reset, syncReset, h3 _ (hlen _ _ (hv _) (hus _)), Except.map, Except.bind]
  · cases hs : (simulate p (syncFrame torque dq) tau limits st a).2 with
    | error e => exact ⟨e, rfl⟩
    | ok v =>
      obtain ⟨mid, is, u, w, s, h1, _, h2, _⟩ := simulate_ok p _ tau limits st a v hs
      simp only [syncFrame, h3 _ (hlen _ _ (hc _ _ _ _ h1) (hg _ _ _)), Except.map] at h2
      simp at h2

/-- The same for DC systems, with any number of motor voltages. -/
theorem c71_dc_violated {K A S C P : Type} [Field K] (p : Parts K (DcY K) (List K) A S C P) (iIn : List K → List K)
    (torque : List K → K) (idx : List ℕ) (nV : ℕ) (tau : K) (limits : List K) (st : St K S C P) (y : DcY K)
    (hus : ∀ s, (p.supplyReset s).2.length = 3) (hv : ∀ c, (p.convReset c).2.length = nV)
    (hl : limits.length = y.mech.length + 1 + idx.length + nV + 1) (a : A) :
    (∃ e, (reset p (dcResetReport torque idx) limits st y).2 = .error e) ∧
    ∃ e, (simulate p (dcFrame iIn torque idx nV 3) tau limits st a).2 = .error e := by
  have hlen : ∀ u us : List K, us.length = 3 → (products u us).length = 3 * u.length := by
    intro u us h
    unfold products
    induction u with
    | nil => rfl
    | cons x u ih => simp [h] at ih ⊢; omega
  constructor
  · cases hs : (reset p (dcResetReport torque idx) limits st y).2 with
    | error e => exact ⟨e, rfl⟩
    | ok v =>
      exfalso
      simp only [reset, dcResetReport] at hs
      cases hm : idx.mapM (getE y.motor) with
      | error e => simp [hm, bind, Except.bind] at hs
      | ok cur =>
        have hcl : cur.length = idx.length := by
          clear hs hl
          induction idx generalizing cur with
          | nil => simp [pure, Except.pure] at hm; subst hm; rfl
          | cons i idx ih =>
            simp only [List.mapM_cons] at hm
            cases h1 : getE y.motor i with
            | error e => simp [h1, bind, Except.bind] at hm
            | ok c0 =>
              cases h2 : idx.mapM (getE y.motor) with
              | error e => simp [h1, h2, bind, Except.bind] at hm
              | ok cs =>
                simp [h1, h2, bind, Except.bind, pure, Except.pure] at hm
                subst hm
                simp [ih cs h2]
        simp only [hm, bind, Except.bind, divLimits] at hs
        split at hs
        · rename_i hh
          simp [hlen _ _ (hus _), hv, hus, hcl] at hh
          omega
        · simp at hs
  · cases hs : (simulate p (dcFrame iIn torque idx nV 3) tau limits st a).2 with
    | error e => exact ⟨e, rfl⟩
    | ok v =>
      exfalso
      obtain ⟨mid, is, u, w, s, h1, _, h2, h3, h4, _⟩ := simulate_ok p _ tau limits st a v hs
      simp only [dcFrame, dcReport] at h4
      generalize (idx.mapM _ : Except Err (List K)) = o1 at h4
      generalize (assign nV _ : Except Err (List K)) = o2 at h4
      rcases o1 with _ | _ <;> rcases o2 with _ | _ <;> simp [bind, Except.bind] at h4

/-- A single-phase supply fits, but its voltage leaves the interval that the three-phase systems declare for `u_sup`
(0 to 1, relative to the effective value): a quarter of a period after a zero crossing it is √2, three quarters after -√2. -/
theorem c71_range_violated (s : GEM.Supply.AC) (u : ℝ) (hu : 0 < u) (hA : s.maxAmp = u * √2) (hf : s.f ≠ 0) :
    ∃ t1 t2, (s.get1 t1).map (· / u) = [√2] ∧ (s.get1 t2).map (· / u) = [-√2] ∧ 1 < √2 := by
  refine ⟨(π / 2 - s.phi) / (2 * π * s.f), (-(π / 2) - s.phi) / (2 * π * s.f), ?_, ?_, ?_⟩
  · have hp := pi_pos
    have e : 2 * π * s.f * ((π / 2 - s.phi) / (2 * π * s.f)) + s.phi = π / 2 := by field_simp; ring
    simp only [GEM.Supply.AC.get1, e, sin_pi_div_two, hA, List.map_cons, List.map_nil]
    congr 1; field_simp
  · have hp := pi_pos
    have e : 2 * π * s.f * ((-(π / 2) - s.phi) / (2 * π * s.f)) + s.phi = -(π / 2) := by field_simp; ring
    simp only [GEM.Supply.AC.get1, e, sin_neg, sin_pi_div_two, hA, List.map_cons, List.map_nil]
    congr 1; field_simp
  · rw [Real.lt_sqrt (by norm_num)]; norm_num

/-- DC systems declare the range of the supply, which holds. -/
theorem c71_dc_range (s : GEM.Supply.AC) (u : ℝ) (hu : 0 < u) (hA : 0 ≤ s.maxAmp) (t : ℝ) :
    ∀ x ∈ (s.get1 t).map (· / u), s.range.1 / u ≤ x ∧ x ≤ s.range.2 / u := by
  intro x hx
  obtain ⟨z, hz, rfl⟩ := List.mem_map.1 hx
  obtain ⟨h1, h2⟩ := c23_single_range s hA t z hz
  exact ⟨div_le_div_of_nonneg_right h1 hu.le, div_le_div_of_nonneg_right h2 hu.le⟩

end supplies

/-! ## C34 for DC systems -/

section dc

variable {K A : Type} [Field K]

/-- DC systems, `simulate`: every quantity of the new state and the applied voltages stand at their names. -/
theorem c34_dc (iIn : List K → List K) (torque : List K → K) (idx : List ℕ) (y y' : DcY K) (u : List K) (us : K)
    (cur : List K) (hcur : pick y'.motor idx = cur.map some) (mechNames curNames volNames : List String)
    (h1 : mechNames.length = y'.mech.length) (h2 : curNames.length = cur.length) (h3 : volNames.length = u.length) :
    ∃ s, (dcFrame (A := A) iIn torque idx volNames.length 1).report y y' u [us] = .ok s ∧
      (dcNames mechNames curNames volNames).zip s = mechNames.zip y'.mech ++ [("torque", torque y'.motor)] ++
        curNames.zip cur ++ volNames.zip u ++ [("u_sup", us)] := by
  have hm : ∀ (idx : List ℕ) (cur : List K), pick y'.motor idx = cur.map some →
      idx.mapM (getE y'.motor) = .ok cur := by
    intro idx
    induction idx with
    | nil => intro cur h; simp [pick] at h; subst h; rfl
    | cons i idx ih =>
      intro cur h
      cases cur with
      | nil => simp [pick] at h
      | cons c cur =>
        simp only [pick, List.map_cons, List.cons.injEq] at h
        simp only [List.mapM_cons, getE, h.1, ih cur h.2, bind, Except.bind, pure, Except.pure]
  refine ⟨y'.mech ++ [torque y'.motor] ++ cur ++ u ++ [us], ?_, ?_⟩
  · simp only [dcFrame, dcReport, hm idx cur hcur, assign, bind, Except.bind, h3.symm, if_true]
    simp
  · simp only [dcNames, List.append_assoc]
    rw [List.zip_append h1, List.singleton_append, List.singleton_append, List.zip_cons_cons, List.zip_append h2,
      List.zip_append h3]
    rfl

end dc

end GEM.Props
