import Verif.Model.Mpc
import Verif.Model.Registry
import Verif.Props.Limits
import Verif.Props.Superposition

/-!
# C143: the model predictive controller of the examples

Whatever the optimiser answers, the controller returns a legal action.  The motor receives the voltage of the optimiser, shortened only as far
as the bridge demands it, if the voltage limit of the phases is half of the supply voltage.
-/

set_option linter.unusedSectionVars false

namespace GEM.Props

noncomputable section

open GEM GEM.Sys GEM.Conv GEM.Motor GEM.Solver GEM.Load GEM.Mpc

/-! ## Statement -/

/-- The controller made for a PMSM system with these parameters, sampling time and limits (`MPC.__init__`). -/
def mpcFor (mp : SyncParams ℝ) (tau : ℝ) (limits : List ℝ) (ph : ℕ) : Mpc :=
  { tau := tau, limits := readState syncStates limits, lq := mp.lq, ld := mp.ld, psi := mp.psiP, rs := mp.rs, p := mp.p, ph := ph }

/-- the highest voltage between two phases that belongs to this voltage in field coordinates at this angle -/
def lineVoltage (ud uq eps : ℝ) : ℝ :=
  let u := dqToAbc ![ud, uq] eps
  max (max |u 0 - u 1| |u 1 - u 2|) |u 2 - u 0|

/-- The observation tells the angle, up to full turns. -/
def TellsAngle (limits o : List ℝ) (eps : ℝ) : Prop :=
  ∃ k : ℤ, readState syncStates o "epsilon" * readState syncStates limits "epsilon" = eps + 2 * Real.pi * k

/-! ## The action -/

theorem line_le {u : Fin 3 → ℝ} (j k : Fin 3) : |u j - u k| ≤ widest u := by
  have h0 : 0 ≤ widest u := (abs_nonneg _).trans (le_max_right _ _)
  have h1 : |u 0 - u 1| ≤ widest u := (le_max_left _ _).trans (le_max_left _ _)
  have h2 : |u 1 - u 2| ≤ widest u := (le_max_right _ _).trans (le_max_left _ _)
  have h3 : |u 2 - u 0| ≤ widest u := le_max_right _ _
  fin_cases j <;> fin_cases k <;> first | (simp only [sub_self, abs_zero]; exact h0) | assumption | (rw [abs_sub_comm]; assumption)

/-- the factor by which the voltage is shortened -/
def shortening (L ud uq eps : ℝ) : ℝ := if 2 * L ≤ lineVoltage ud uq eps then 2 * L / lineVoltage ud uq eps else 1

theorem squeeze_eq (m : Mpc) (ud uq eps : ℝ) (k : Fin 3) :
    m.squeeze (dqToAbc ![ud, uq] eps) k = shortening (m.limits "u_a") ud uq eps * dqToAbc ![ud, uq] eps k := by
  unfold Mpc.squeeze shortening
  have e : widest (dqToAbc ![ud, uq] eps) = lineVoltage ud uq eps := rfl
  rw [e]
  simp only [ge_iff_le]
  split_ifs <;> ring

theorem squeezed_le {m : Mpc} (hL : 0 < m.limits "u_a") (u : Fin 3 → ℝ) (j k : Fin 3) : |m.squeeze u j - m.squeeze u k| ≤ 2 * m.limits "u_a" := by
  unfold Mpc.squeeze
  split_ifs with h
  · have hw : 0 < widest u := lt_of_lt_of_le (by linarith) h
    have e : u j / widest u * 2 * m.limits "u_a" - u k / widest u * 2 * m.limits "u_a" = (u j - u k) * (2 * m.limits "u_a" / widest u) := by ring
    rw [e, abs_mul, abs_of_nonneg (by positivity : 0 ≤ 2 * m.limits "u_a" / widest u)]
    calc |u j - u k| * (2 * m.limits "u_a" / widest u) ≤ widest u * (2 * m.limits "u_a" / widest u) := by
          gcongr
          exact line_le j k
      _ = 2 * m.limits "u_a" := by field_simp
  · exact (line_le j k).trans (not_le.1 h).le

theorem shift_le {u : Fin 3 → ℝ} {c : ℝ} (h : ∀ j k, |u j - u k| ≤ 2 * c) (k : Fin 3) : |shift u k| ≤ c := by
  have h' := fun j k => abs_le.1 (h j k)
  unfold shift
  have a0 := h' 0 1
  have a1 := h' 0 2
  have a2 := h' 1 2
  rw [abs_le]
  rcases le_total (u 0) (u 1) with e1 | e1 <;> rcases le_total (u 1) (u 2) with e2 | e2 <;> rcases le_total (u 0) (u 2) with e3 | e3 <;>
    fin_cases k <;> simp [e1, e2, e3] <;> constructor <;> linarith

/-- C143, legal actions: three duty cycles in [-1, 1], whatever the optimiser answers. -/
theorem c143_legal (m : Mpc) (L : ℝ) (hL : 0 < L) (ha : m.limits "u_a" = L) (hb : m.limits "u_b" = L) (hc : m.limits "u_c" = L)
    (solve : Task → Except Err (ℝ × ℝ)) (state : String → ℝ) (reference a : List ℝ) (h : m.control solve state reference = .ok a) :
    a.length = 3 ∧ ∀ x ∈ a, -1 ≤ x ∧ x ≤ 1 := by
  unfold Mpc.control at h
  cases ht : m.task state reference with
  | error e => simp [ht, Bind.bind, Except.bind] at h
  | ok t =>
    cases hs : solve t with
    | error e => simp [ht, hs, Bind.bind, Except.bind] at h
    | ok u =>
      simp only [ht, hs, Bind.bind, Except.bind, Except.ok.injEq] at h
      subst h
      refine ⟨rfl, fun x hx => ?_⟩
      have key : ∀ k, |shift (m.squeeze (dqToAbc ![u.1, u.2] (state "epsilon" * m.limits "epsilon"))) k| ≤ L := by
        rw [← ha]
        exact shift_le (squeezed_le (by rw [ha]; exact hL) _)
      simp only [Mpc.phases, ha, hb, hc, List.mem_cons, List.not_mem_nil, or_false] at hx
      rcases hx with rfl | rfl | rfl <;> rw [← abs_le, abs_div, abs_of_pos hL, div_le_one hL] <;> exact key _

/-- C143, the limitations of the optimisation problem: they say that no voltage between phases exceeds the ceiling. -/
theorem c143_hexagon (ceiling eps ud uq : ℝ) : Mpc.Allows ceiling eps ud uq ↔ lineVoltage ud uq eps ≤ ceiling := by
  have e0 : dqToAbc ![ud, uq] eps 0 - dqToAbc ![ud, uq] eps 1 =
      3 / 2 * Real.cos eps * ud - 3 / 2 * Real.sin eps * uq - √3 / 2 * Real.sin eps * ud - √3 / 2 * Real.cos eps * uq := by
    simp [dqToAbc, t32, q, Matrix.mulVec, dotProduct, Fin.sum_univ_succ]; ring
  have e1 : dqToAbc ![ud, uq] eps 1 - dqToAbc ![ud, uq] eps 2 = √3 * Real.sin eps * ud + √3 * Real.cos eps * uq := by
    simp [dqToAbc, t32, q, Matrix.mulVec, dotProduct, Fin.sum_univ_succ]; ring
  have e2 : dqToAbc ![ud, uq] eps 2 - dqToAbc ![ud, uq] eps 0 =
      -3 / 2 * Real.cos eps * ud + 3 / 2 * Real.sin eps * uq - √3 / 2 * Real.sin eps * ud - √3 / 2 * Real.cos eps * uq := by
    simp [dqToAbc, t32, q, Matrix.mulVec, dotProduct, Fin.sum_univ_succ]; ring
  unfold Mpc.Allows lineVoltage
  rw [← e0, ← e1, ← e2]
  simp only [max_le_iff, abs_le, ge_iff_le]
  tauto

/-- C143, the prediction: the differential equations of the optimisation problem are those of the motor. -/
theorem c143_prediction (mp : SyncParams ℝ) (hd : mp.ld ≠ 0) (hq : mp.lq ≠ 0) (tau : ℝ) (limits : List ℝ) (ph : ℕ) (w id iq eps did diq ud uq : ℝ) :
    (mpcFor mp tau limits ph).Predicts (mp.p * w) id iq did diq ud uq ↔
      did = syncOde (pmsmConstants mp) ![id, iq, eps] ![ud, uq] w 0 ∧ diq = syncOde (pmsmConstants mp) ![id, iq, eps] ![ud, uq] w 1 := by
  rw [pmsm_ode]
  simp only [Mpc.Predicts, mpcFor, Matrix.cons_val_zero, Matrix.cons_val_one]
  rw [eq_div_iff hd, eq_div_iff hq]
  constructor <;> rintro ⟨h1, h2⟩ <;> constructor <;> linarith

/-! ## The voltage of the motor -/

theorem t23_shifted (u : Fin 3 → ℝ) (c : ℝ) : t23 (fun k => u k - c) = t23 u := by
  funext i
  fin_cases i <;> simp [t23, Matrix.mulVec, dotProduct, Fin.sum_univ_succ] <;> ring

theorem abcToDq_scaled (u : Fin 3 → ℝ) (c e : ℝ) : abcToDq (fun k => c * u k) e = fun k => c * abcToDq u e k := by
  have h : t23 (fun k => c * u k) = fun k => c * t23 u k := by
    funext i
    fin_cases i <;> simp [t23, Matrix.mulVec, dotProduct, Fin.sum_univ_succ] <;> ring
  unfold abcToDq
  rw [h]
  funext i
  fin_cases i <;> simp [qInv, q] <;> ring

/-- The voltage that a supply with voltage `v` and the three phase bridge put out for the action of the controller, in field coordinates. -/
theorem mpc_voltage {m : Mpc} {L : ℝ} (hL : 0 < L) (ha : m.limits "u_a" = L) (hb : m.limits "u_b" = L) (hc : m.limits "u_c" = L)
    (ud uq eps v : ℝ) :
    abcToDq (fun k => b6Duty (m.phases ud uq eps) k * v) eps = ![v / (2 * L) * shortening L ud uq eps * ud, v / (2 * L) * shortening L ud uq eps * uq] := by
  set w := m.squeeze (dqToAbc ![ud, uq] eps) with hw
  have key : ∀ k, |shift w k| ≤ L := by
    rw [← ha]
    exact shift_le (squeezed_le (by rw [ha]; exact hL) _)
  have hd : ∀ k, b6Duty (m.phases ud uq eps) k = shift w k / (2 * L) := by
    have h1 : ∀ x, |x| ≤ L → clip (x / L) (-1) 1 = x / L := fun x hx => by
      have h2 := abs_le.1 hx
      unfold clip
      rw [max_eq_left (by rw [le_div_iff₀ hL]; linarith), min_eq_left (by rw [div_le_one hL]; exact h2.2)]
    intro k
    have h2 := h1 _ (key k)
    unfold b6Duty Mpc.phases
    rw [ha, hb, hc]
    fin_cases k <;> simp at h2 ⊢ <;> rw [h2] <;> ring
  have h2 : (fun k => b6Duty (m.phases ud uq eps) k * v) = fun k => v / (2 * L) * shift w k := by
    funext k
    rw [hd]
    ring
  rw [h2, abcToDq_scaled]
  have h3 : abcToDq (shift w) eps = abcToDq w eps := by
    unfold abcToDq shift
    rw [t23_shifted]
  have h4 : w = fun k => shortening L ud uq eps * dqToAbc ![ud, uq] eps k := by
    funext k
    rw [hw, squeeze_eq, ha]
  rw [h3, h4, abcToDq_scaled]
  have h5 : abcToDq (dqToAbc ![ud, uq] eps) eps = ![ud, uq] := GEM.Wrap.qInv_t23_t32_q _ _
  rw [h5]
  funext k
  fin_cases k <;> simp <;> ring

theorem lineVoltage_turns (ud uq eps : ℝ) (k : ℤ) : lineVoltage ud uq (eps + 2 * Real.pi * k) = lineVoltage ud uq eps := by
  unfold lineVoltage
  rw [dqToAbc_turns]

theorem shortening_turns (L ud uq eps : ℝ) (k : ℤ) : shortening L ud uq (eps + 2 * Real.pi * k) = shortening L ud uq eps := by
  unfold shortening
  rw [lineVoltage_turns]

theorem sync_tells {limits : List ℝ} (hl : limits.length = 14) (hlim : ∀ n ∈ ["u_sd", "u_sq", "epsilon"], readState syncStates limits n ≠ 0)
    {om T e x v : ℝ} {i w : Fin 3 → ℝ} {idq udq : Fin 2 → ℝ} {n : ℤ} (he : e = x + 2 * Real.pi * n) :
    ∃ o, divLimits ([om] ++ [T] ++ l3 i ++ l2 idq ++ List.ofFn w ++ l2 udq ++ [e] ++ [v]) limits = .ok o ∧ TellsAngle limits o x ∧
      readState syncStates o "u_sd" * readState syncStates limits "u_sd" = udq 0 ∧
      readState syncStates o "u_sq" * readState syncStates limits "u_sq" = udq 1 := by
  refine ⟨_, by unfold divLimits; rw [if_pos (by simp [hl, l3, l2])], ⟨n, ?_⟩, ?_, ?_⟩ <;> rw [read_div, div_mul_cancel₀ _ (hlim _ (by simp))] <;>
    simp [syncStates_eq, readState, l3, l2, he]

/-- The observation after a reset tells the angle of the motor. -/
theorem c143_start (torque : SyncY → ℝ) (limits : List ℝ) (hl : limits.length = 14)
    (hlim : ∀ n ∈ ["u_sd", "u_sq", "epsilon"], readState syncStates limits n ≠ 0) (x : Fin (1 + 3) → ℝ) (w : Fin 3 → ℝ) (v : ℝ) :
    ∃ o, ((syncReset torque (syncY x) (List.ofFn w) [v]).bind fun s => divLimits s limits) = .ok o ∧ TellsAngle limits o (x 3) := by
  obtain ⟨n, hn⟩ := wrapReset_turns (x 3)
  obtain ⟨o, h1, h2, -⟩ := sync_tells (om := x 0) (T := torque (syncY x)) (i := dqToAbc ![x 1, x 2] (wrapReset (x 3))) (idq := ![x 1, x 2]) (w := w)
    (udq := abcToDq w (wrapReset (x 3))) (v := v) hl hlim hn
  refine ⟨o, ?_, h2⟩
  rw [← h1]
  simp only [syncReset, syncY, three_ofFn, Except.map, Except.bind]

section drive

variable {P : Type} {src : Source P} {v : ℝ} {load : AnyLoad} {limits : List ℝ} {L : ℝ} {torque : (Fin 3 → ℝ) → ℝ}
  {ode : (Fin 3 → ℝ) → (Fin 2 → ℝ) → ℝ → Fin 3 → ℝ} {scratch : Option (Fin (1 + 3) → ℝ)} {st : St ℝ (Euler ℝ (Fin (1 + 3) → ℝ)) (CConv ℝ) P}
  {x : Fin (1 + 3) → ℝ} {N : ℕ} {d : ℝ} {w0 : Fin 3 → ℝ}

/-- C143, what reaches the motor: for every answer of the optimiser and every observation that tells the angle, the motor is driven by the voltage of the
optimiser times `v / (2 L)` (supply voltage by twice the limit of the phases), times the shortening if a voltage between phases is above `2 L`.  The new
observation tells the angle again and reports this voltage. -/
theorem c143_voltage (m : Mpc) (hm : m.limits = readState syncStates limits) (hv : FixedVoltage src v) (hs : load.Static) (hl : limits.length = 14)
    (hlim : ∀ n ∈ ["u_sd", "u_sq", "epsilon"], readState syncStates limits n ≠ 0)
    (hL : 0 < L) (hp : ∀ n ∈ ["u_a", "u_b", "u_c"], readState syncStates limits n = L) (hN : N ≠ 0)
    (hset : SetOnce contPower st.conv d (·.length = 3) b6Duty w0) (hx : st.solver = ⟨st.t, x, N⟩)
    (solve : Task → Except Err (ℝ × ℝ)) (o reference a : List ℝ) (ud uq : ℝ) (ho : TellsAngle limits o (x 3))
    (hu : ∀ t, m.task (readState syncStates o) reference = .ok t → solve t = .ok (ud, uq))
    (ha : m.control solve (readState syncStates o) reference = .ok a) :
    let g := v / (2 * L) * shortening L ud uq (x 3)
    ∃ st' o', simulate (eulerParts contPower src load torque ode scratch syncY ofSyncY) (syncFrame (syncTq torque) false) d limits st a = (st', .ok o') ∧
      SetOnce contPower st'.conv d (·.length = 3) b6Duty w0 ∧
      st'.solver = ⟨st'.t, (euStep (core torque ode load ![g * ud, g * uq]) (d / N))^[N] x, N⟩ ∧ TellsAngle limits o' (st'.solver.y 3) ∧
      readState syncStates o' "u_sd" * readState syncStates limits "u_sd" = g * ud ∧
      readState syncStates o' "u_sq" * readState syncStates limits "u_sq" = g * uq := by
  intro g
  obtain ⟨k, hk⟩ := ho
  have ea : a = m.phases ud uq (x 3 + 2 * Real.pi * k) := by
    unfold Mpc.control at ha
    cases ht : m.task (readState syncStates o) reference with
    | error e => simp [ht, Bind.bind, Except.bind] at ha
    | ok t =>
      simp only [ht, hu t ht, Bind.bind, Except.bind, Except.ok.injEq] at ha
      rw [← ha, hm, hk]
  have hvolt := mpc_voltage (m := m) (L := L) hL (by rw [hm]; exact hp _ (by simp)) (by rw [hm]; exact hp _ (by simp)) (by rw [hm]; exact hp _ (by simp))
    ud uq (x 3 + 2 * Real.pi * k) v
  rw [← ea, abcToDq_fullTurns, shortening_turns] at hvolt
  have hlen : a.length = 3 := by rw [ea]; rfl
  obtain ⟨D, M, all, holds, hR, hc, hM, hr⟩ := hset
  obtain ⟨st', h1, h2, h3⟩ := simulate_out (torque := torque) (ode := ode) (load := load) (scratch := scratch) (toY := syncY) (ofY := ofSyncY)
    (f := syncFrame (syncTq torque) false) (limits := limits) (legal := (·.length = 3)) (out := b6Duty) (u := ![g * ud, g * uq]) (x := x) (a := a)
    hs hv hR hM (fun x => ⟨_, l3_ofFn _⟩) hN hc hx hlen (by
      simp only [syncFrame, three_ofFn, Except.map, syncY]
      exact congrArg _ hvolt)
  set y := (euStep (core torque ode load ![g * ud, g * uq]) (d / N))^[N] x with hy
  obtain ⟨n, hn⟩ := wrap_turns (y 3)
  obtain ⟨o', e1, e2, e3, e4⟩ := sync_tells (om := y 0) (T := syncTq torque (syncY y)) (i := dqToAbc ![y 1, y 2] (x 3)) (idq := ![y 1, y 2])
    (w := fun k => b6Duty a k * v) (udq := ![g * ud, g * uq]) (v := v) hl hlim hn
  refine ⟨st', o', ?_, ⟨D, M, all, holds, hR, h1, hM, hr⟩, h2, ?_, e3, e4⟩
  · rw [h3, ← e1, ← hvolt]
    simp only [syncFrame, syncY, three_ofFn, Except.map, Except.bind, if_false, Bool.false_eq_true]
  · rw [h2]
    exact e2

end drive

/-- C143, partial: if the limit of the phases is half of the supply voltage, a voltage which the optimiser may choose for the coming step (it keeps the
limitation at the second of its times) reaches the motor as it is. -/
theorem c143_exact_partial {P : Type} {src : Source P} {load : AnyLoad} {limits : List ℝ} {L : ℝ} {torque : (Fin 3 → ℝ) → ℝ}
    {ode : (Fin 3 → ℝ) → (Fin 2 → ℝ) → ℝ → Fin 3 → ℝ} {scratch : Option (Fin (1 + 3) → ℝ)} {st : St ℝ (Euler ℝ (Fin (1 + 3) → ℝ)) (CConv ℝ) P}
    {x : Fin (1 + 3) → ℝ} {N : ℕ} {d : ℝ} {w0 : Fin 3 → ℝ} (m : Mpc) (hm : m.limits = readState syncStates limits) (hv : FixedVoltage src (2 * L))
    (hs : load.Static) (hl : limits.length = 14) (hlim : ∀ n ∈ ["u_sd", "u_sq", "epsilon"], readState syncStates limits n ≠ 0)
    (hL : 0 < L) (hp : ∀ n ∈ ["u_a", "u_b", "u_c"], readState syncStates limits n = L) (hN : N ≠ 0)
    (hset : SetOnce contPower st.conv d (·.length = 3) b6Duty w0) (hx : st.solver = ⟨st.t, x, N⟩)
    (solve : Task → Except Err (ℝ × ℝ)) (o reference a : List ℝ) (ud uq : ℝ) (ho : TellsAngle limits o (x 3))
    (hu : ∀ t, m.task (readState syncStates o) reference = .ok t → solve t = .ok (ud, uq) ∧
      ∃ ceiling eps, t.ceilings[1]? = some ceiling ∧ t.angles[1]? = some eps ∧ Mpc.Allows ceiling eps ud uq)
    (ha : m.control solve (readState syncStates o) reference = .ok a) :
    ∃ st' o', simulate (eulerParts contPower src load torque ode scratch syncY ofSyncY) (syncFrame (syncTq torque) false) d limits st a = (st', .ok o') ∧
      st'.solver = ⟨st'.t, (euStep (core torque ode load ![ud, uq]) (d / N))^[N] x, N⟩ := by
  obtain ⟨st', o', h1, -, h2, -⟩ := c143_voltage (torque := torque) (ode := ode) (load := load) (scratch := scratch) m hm hv hs hl hlim hL hp hN hset hx
    solve o reference a ud uq ho (fun t ht => (hu t ht).1) ha
  refine ⟨st', o', h1, ?_⟩
  have e : 2 * L / (2 * L) * shortening L ud uq (x 3) = 1 := by
    rw [div_self (by positivity), one_mul]
    cases ht : m.task (readState syncStates o) reference with
    | error e => simp [Mpc.control, ht, Bind.bind, Except.bind] at ha
    | ok t =>
      obtain ⟨-, ceiling, eps, c1, c2, c3⟩ := hu t ht
      unfold Mpc.task at ht
      obtain ⟨ts, -, ht⟩ := Init.bind_ok ht
      simp only [Except.ok.injEq] at ht
      subst ht
      obtain ⟨k, hk⟩ := ho
      have hph : 1 < m.ph := by
        by_contra hcon
        rw [List.getElem?_eq_none (by simpa using hcon)] at c1
        cases c1
      simp only [List.getElem?_map, List.getElem?_range hph, Option.map_some, Option.some.injEq, Nat.cast_one, sub_self, zero_mul, add_zero] at c1 c2
      rw [c143_hexagon, ← c1, ← c2, hm, hk, lineVoltage_turns, hp _ (by simp)] at c3
      unfold shortening
      split_ifs with h
      · rw [le_antisymm c3 h, div_self (by positivity)]
      · rfl
  rw [h2, e, one_mul, one_mul]

/-- An optimiser that answers with 1 V in direction of the field; voltage limit 1 V, supply 2 V. -/
example (mp : SyncParams ℝ) : ∃ (a : List ℝ) (st' : St ℝ (Euler ℝ (Fin (1 + 3) → ℝ)) (CConv ℝ) Unit) (o' : List ℝ),
    (mpcFor mp 1 (List.replicate 14 1) 3).control (fun _ => .ok (1, 0)) (readState syncStates (List.replicate 14 0)) [0, 0] = .ok a ∧
    simulate (eulerParts contPower (idealSource 2) .const (pmsmTorque mp) (syncOde (pmsmConstants mp)) none syncY ofSyncY)
      (syncFrame (syncTq (pmsmTorque mp)) false) 1 (List.replicate 14 1) ⟨0, 0, ⟨0, ![5, 0, 0, 0], 1⟩, .b6 (CB6.new 1 0), ()⟩ a = (st', .ok o') ∧
    st'.solver.y = ![5, 0, 0, 0] + ((1 : ℝ) / (1 : ℕ)) • core (pmsmTorque mp) (syncOde (pmsmConstants mp)) .const ![1, 0] ![5, 0, 0, 0] := by
  have hl : ∀ n ∈ ["u_sd", "u_sq", "epsilon", "u_a", "u_b", "u_c"], readState syncStates (List.replicate 14 1) n = 1 := fun n hn => by
    simp only [List.mem_cons, List.not_mem_nil, or_false] at hn
    rcases hn with rfl | rfl | rfl | rfl | rfl | rfl <;> simp [syncStates_eq, readState, List.replicate]
  have he : readState syncStates (List.replicate 14 0) "epsilon" = 0 := by simp [syncStates_eq, readState, List.replicate]
  obtain ⟨t, ht⟩ : ∃ t, (mpcFor mp 1 (List.replicate 14 1) 3).task (readState syncStates (List.replicate 14 0)) [0, 0] = .ok t :=
    ⟨_, by simp [Mpc.task, mpcFor, List.range_succ, getE, Bind.bind, Except.bind, Pure.pure, Except.pure]; rfl⟩
  obtain ⟨a, hc⟩ : ∃ a, (mpcFor mp 1 (List.replicate 14 1) 3).control (fun _ => .ok (1, 0)) (readState syncStates (List.replicate 14 0)) [0, 0] = .ok a :=
    ⟨_, by simp only [Mpc.control, ht, Bind.bind, Except.bind]; rfl⟩
  have hT : ∀ t, (mpcFor mp 1 (List.replicate 14 1) 3).task (readState syncStates (List.replicate 14 0)) [0, 0] = .ok t →
      t.ceilings[1]? = some 2 ∧ t.angles[1]? = some 0 := fun t ht => by
    unfold Mpc.task at ht
    obtain ⟨ts, -, ht⟩ := Init.bind_ok ht
    simp only [Except.ok.injEq] at ht
    subst ht
    have h1 := hl "u_a" (by simp)
    constructor
    · simp only [List.getElem?_map, mpcFor, h1]
      simp
    · simp only [List.getElem?_map, List.getElem?_range (show 1 < (mpcFor mp 1 (List.replicate 14 1) 3).ph by simp [mpcFor]), he]
      simp
  refine ⟨a, ?_⟩
  obtain ⟨st', o', h1, h2⟩ := c143_exact_partial (src := idealSource 2) (load := .const) (limits := List.replicate 14 1) (L := 1) (torque := pmsmTorque mp)
    (ode := syncOde (pmsmConstants mp)) (scratch := none) (st := ⟨0, 0, ⟨0, ![5, 0, 0, 0], 1⟩, .b6 (CB6.new 1 0), ()⟩) (x := ![5, 0, 0, 0])
    (mpcFor mp 1 (List.replicate 14 1) 3) rfl ⟨fun _ _ _ => by rw [mul_one]; rfl, fun _ => by rw [mul_one]; rfl⟩ trivial (by simp)
    (fun n hn => by rw [hl n (by simp at hn ⊢; tauto)]; exact one_ne_zero) one_pos (fun n hn => hl n (by simp at hn ⊢; tauto)) one_ne_zero
    (c138_converters 1).2.2.2.2.2.1 rfl (fun _ => .ok (1, 0)) (List.replicate 14 0) [0, 0] _ 1 0 ⟨0, by rw [he]; simp⟩
    (fun t ht => ⟨rfl, 2, 0, (hT t ht).1, (hT t ht).2, by norm_num [Mpc.Allows]⟩) hc
  exact ⟨st', o', hc, h1, by rw [h2]; rfl⟩

/-- C143 is violated by the notebook: with `limit_values = dict(i=…, omega=…, u=450)` the limit of the phases is 225 V, and with its supply of 400 V the bridge
puts out 8/9 of every voltage that the optimiser may choose. -/
theorem c143_notebook_violated (om pi r i om' i' om'' w : ℝ) (tl : Init.Dict ℝ → Init.Dict ℝ → Except Err ℝ) (res : Init.Dict ℝ × Init.Dict ℝ)
    (h : Limits.acLimits (Limits.pmsmDefLimits om pi) (Limits.pmsmDefNominal om pi) Limits.syncIos r tl [("i", i), ("omega", om'), ("u", 450)]
      [("i", i'), ("omega", om''), ("u", 315)] = .ok res)
    (m : Mpc) (hm : ∀ n y, Registry.systemValue res.1 [("omega", w)] 400 n = some y → m.limits n = y) (ud uq eps : ℝ)
    (ha : Mpc.Allows (2 * m.limits "u_a") eps ud uq) :
    abcToDq (fun k => b6Duty (m.phases ud uq eps) k * 400) eps = ![8 / 9 * ud, 8 / 9 * uq] := by
  have ku : Utils.lookup res.1 "u" = some 450 :=
    (c69_keeps_ac _ _ _ _ _ _ _ _ (by simp [Limits.pmsmDefLimits]) (by simp) h "u" 450 (by norm_num)).1 (by
      simp [Limits.lookup_nil, Limits.lookup_cons])
  have hp : ∀ q ∈ [("u_a", "i_a"), ("u_b", "i_b"), ("u_c", "i_c")], m.limits q.1 = 225 := fun q hq => by
    obtain ⟨-, g, -⟩ := c69_general_ac _ _ ("u_a", "i_a") _ _ _ _ _ _ (by simp [Limits.pmsmDefLimits]) (by simp) h
      (by simp [Limits.pmsmDefLimits, Limits.lookup_nil, Limits.lookup_cons])
      (by simp [Limits.pmsmDefNominal, Limits.lookup_nil, Limits.lookup_cons]) (by simp)
      (by simp [Limits.pmsmDefNominal, Limits.lookup_nil, Limits.lookup_cons]) (by simp) q
      (by simp only [List.mem_cons, List.not_mem_nil, or_false] at hq; rcases hq with rfl | rfl | rfl <;> simp)
      (by simp only [List.mem_cons, List.not_mem_nil, or_false] at hq
          rcases hq with rfl | rfl | rfl <;> simp [Limits.pmsmDefLimits, Limits.lookup_nil, Limits.lookup_cons])
      (by simp only [List.mem_cons, List.not_mem_nil, or_false] at hq
          rcases hq with rfl | rfl | rfl <;> simp [Limits.pmsmDefLimits, Limits.lookup_nil, Limits.lookup_cons])
      (by simp only [List.mem_cons, List.not_mem_nil, or_false] at hq
          rcases hq with rfl | rfl | rfl <;> simp [Limits.pmsmDefNominal, Limits.lookup_nil, Limits.lookup_cons])
      (by simp only [List.mem_cons, List.not_mem_nil, or_false] at hq
          rcases hq with rfl | rfl | rfl <;> simp [Limits.pmsmDefNominal, Limits.lookup_nil, Limits.lookup_cons])
    refine hm _ _ ?_
    simp only [List.mem_cons, List.not_mem_nil, or_false] at hq
    rw [ku] at g
    rcases hq with rfl | rfl | rfl <;> simp [Registry.systemValue, g, Limits.lookup_nil, Limits.lookup_cons, Registry.smaller] <;> norm_num
  rw [mpc_voltage (L := 225) (by norm_num) (hp ("u_a", "i_a") (by simp)) (hp ("u_b", "i_b") (by simp)) (hp ("u_c", "i_c") (by simp))]
  have e : shortening 225 ud uq eps = 1 := by
    rw [c143_hexagon, hp ("u_a", "i_a") (by simp)] at ha
    unfold shortening
    split_ifs with h
    · rw [le_antisymm ha h, div_self (by norm_num)]
    · rfl
  rw [e]
  norm_num

/-- such limits -/
example : ∃ res, Limits.acLimits (Limits.pmsmDefLimits (419 : ℝ) 3) (Limits.pmsmDefNominal 314 3) Limits.syncIos (1 / 10) (fun _ _ => .ok 1)
    [("i", 226), ("omega", 1257), ("u", 450)] [("i", 158), ("omega", 880), ("u", 315)] = .ok res :=
  ⟨_, by
    simp [Limits.acLimits, Limits.mergeUser, Limits.pmsmDefLimits, Limits.pmsmDefNominal, Limits.syncIos, Limits.ioAgenda, Limits.ioLoop, Limits.currentOr,
      Init.get, Limits.updateThreePhase, Limits.lookup_nil, Limits.lookup_cons, Utils.dictUpdate, Utils.dictSet, Bind.bind, Except.bind]
    rfl⟩

/-- An optimiser that ignores its limitations: 900 V with a limit of 225 V. -/
example : ({ tau := 1, limits := fun _ => 225, lq := 1, ld := 1, psi := 1, rs := 1, p := 1 } : Mpc).control (fun _ => .ok (900, 0)) (fun _ => 0) [0, 0] =
    .ok [1, -1, -1] := by
  have e : dqToAbc ![900, 0] 0 = ![900, -450, -450] := by
    funext k
    fin_cases k <;> simp [dqToAbc, t32, q, Matrix.mulVec, dotProduct, Fin.sum_univ_succ] <;> norm_num
  have e' : widest ![900, -450, -450] = 1350 := by
    have h1 : |(900 : ℝ) + 450| = 1350 := by norm_num
    have h2 : |(-450 : ℝ) - 900| = 1350 := by norm_num
    simp [widest, h1, h2]
  have e'' : (![900, -450, -450] : Fin 3 → ℝ) 2 = -450 := rfl
  simp [Mpc.control, Mpc.task, List.range_succ, getE, Bind.bind, Except.bind, Pure.pure, Except.pure, Mpc.phases, shift, Mpc.squeeze, e, e']
  norm_num
  rw [e'']
  norm_num

end

end GEM.Props
