import Verif.Props.InRange

/-!
# C123: externally excited and shunt motors leave the announced ranges

Only the currents of these motors are limited.  Beside the series motor (`InRange.lean`) the default environments for speed control of the
externally excited motor and for torque control of the externally excited and of the shunt motor can be steered out of `state_space` within
a running episode, by actions of the action space and from the default initial state.
-/

set_option linter.unusedSectionVars false

namespace GEM.Props

noncomputable section

open GEM GEM.Core GEM.Sys GEM.Conv GEM.Motor GEM.Registry GEM.Limits GEM.Init GEM.Utils GEM.Refs GEM.Reward GEM.Assembly GEM.Constr

/-! ## Steering an environment -/

section general

variable {Y U A S C P G τ : Type} {c : Setup Y U A S C P G τ} {conv : C → Prop} {shape : Y → Prop} {space : A → Prop} {fresh ready : τ → Prop}
  {w : Wse String} {m : Monitor (List ℝ) ℝ} {idx : List ℕ}

/-- If from every state of the `k`th region there is an action that leads to the goal or to the next region, and no constraint is violated
on the way, then there are actions that lead to the goal within a running episode. -/
theorem steered (hc : Coherent c) (hm : modules c = .ok (w, m, idx))
    (ha : AcceptsAll c.p c.f c.rep c.tau c.limits c.names.length conv shape space) {refLow refHigh : List ℝ}
    (hr : Provides c.gen refLow refHigh fresh ready)
    (hw : ∀ s r : List ℝ, s.length = c.names.length → Refs.Within refLow refHigh r →
        ∀ d, d = 0 ∨ d = 1 → ∃ x, number (Reward.reward w s r d) = .ok x)
    (J : ℕ → Sys.St ℝ S C P → Prop) (goal : List ℝ → Prop) {box : A → Prop} (hbox : ∀ a, box a → space a)
    (hJ : ∀ k st, J k st → ∃ a st' s, box a ∧ Sys.simulate c.p c.f c.tau c.limits st a = (st', .ok s) ∧
      ¬ Violates c.lower c.allStates c.names c.limited c.squares s ∧ (goal s ∨ J (k + 1) st'))
    {n : ℕ} (hend : ∀ st, ¬ J n st) :
    ∀ l k, k + l = n → ∀ env : Env (World S C P G τ) A (List ℝ) (List ℝ) (List ℝ) ℝ, Idle c conv shape space fresh ready false env →
      J k env.comp.sys → ∃ actions : List A, (∀ a ∈ actions, box a) ∧ ∃ a r s ref,
        ((.step a : Core.Op (World S C P G τ) A), Core.Out.step (.done r)) ∈ (Core.run (comps c w m idx) env (actions.map .step)).2 ∧
        r.terminated = false ∧ goal s ∧ s.length = c.names.length ∧ Shows c s r.obs ∧ Refs.Within refLow refHigh ref ∧
        number (Reward.reward w s ref 0) = .ok r.reward := by
  intro l
  induction l with
  | zero =>
    intro k hk env _ h
    rw [add_zero] at hk
    subst hk
    exact absurd h (hend _)
  | succ l ih =>
    intro k hk env hi h
    obtain ⟨a, st', s, q1, q2, q3, q4⟩ := hJ k _ h
    obtain ⟨env', r, s', ref, d, e1, e2, e3, -, e5, e6, e7, e8, e9, e10, -⟩ := step_detail hc hm ha hr hw hi a (hbox a q1)
    rw [q2, Prod.mk.injEq, Except.ok.injEq] at e2
    obtain ⟨e2, rfl⟩ := e2
    have hd : d ≠ 1 := fun hd => q3 (e9.1 hd)
    obtain rfl := e6.resolve_right hd
    have hterm : r.terminated = false := by
      rw [Bool.eq_false_iff]
      exact fun h => hd (e8.1 h)
    rw [hterm] at e10
    rcases q4 with q4 | q4
    · have hlen : s.length = c.names.length := by
        obtain ⟨h1, -⟩ := hi.running rfl
        obtain ⟨st2, s2, f1, f2, -⟩ := running_step ha h1 a (hbox a q1)
        rw [q2, Prod.mk.injEq, Except.ok.injEq] at f1
        rw [f1.2, f2]
      refine ⟨[a], by simpa using q1, a, r, s, ref, ?_, hterm, q4, hlen, e3, e5, e7⟩
      simp [Core.run, Core.apply, e1]
    · rw [e2] at q4
      obtain ⟨as, g1, b, r', s', ref', g2, g3⟩ := ih (k + 1) (by omega) env' e10 q4
      refine ⟨a :: as, by simpa using ⟨q1, g1⟩, b, r', s', ref', ?_, g3⟩
      simp only [List.map_cons, Core.run, Core.apply, e1]
      exact List.mem_cons_of_mem _ g2

end general

/-! ## First-order lags -/

/-- lower bound of a lag whose input is bounded from below for some time -/
theorem lag_ge {f d : ℝ → ℝ} {r l T lo : ℝ} (hl : 0 < l) (hc : ContinuousOn f (Set.Ici 0))
    (hd : ∀ t, 0 ≤ t → HasDerivWithinAt f ((d t - r * f t) / l) (Set.Ici t) t) (hlo : ∀ t, 0 ≤ t → t ≤ T → r * lo ≤ d t) {t : ℝ}
    (h0 : 0 ≤ t) (ht : t ≤ T) : lo + (f 0 - lo) * Real.exp (-(r / l) * t) ≤ f t := by
  have e1 : ∀ t, HasDerivWithinAt (fun t : ℝ => Real.exp (r / l * t)) (Real.exp (r / l * t) * (r / l)) (Set.Ici t) t := fun t => by
    have := ((hasDerivAt_id t).const_mul (r / l)).exp
    simpa using this.hasDerivWithinAt
  have key : f 0 - lo ≤ (f t - lo) * Real.exp (r / l * t) := by
    refine image_le_of_deriv_right_le_deriv_boundary (f := fun _ => f 0 - lo) (f' := fun _ => 0) (a := 0) (b := t)
      (B := fun t => (f t - lo) * Real.exp (r / l * t)) (B' := fun t => (d t - r * lo) / l * Real.exp (r / l * t)) continuousOn_const
      (fun x _ => hasDerivWithinAt_const _ _ _) (by simp) (((hc.mono fun x hx => hx.1).sub continuousOn_const).mul (by fun_prop))
      (fun x hx => ?_) (fun x hx => ?_) ⟨h0, le_rfl⟩
    · refine (((hd x hx.1).sub_const _).mul (e1 x)).congr_deriv ?_
      field_simp
      ring
    · exact mul_nonneg (div_nonneg (sub_nonneg.2 (hlo x hx.1 (hx.2.le.trans ht))) hl.le) (Real.exp_pos _).le
  have hk : (Real.exp (r / l * t))⁻¹ = Real.exp (-(r / l) * t) := by rw [← Real.exp_neg]; congr 1; ring
  rw [← le_sub_iff_add_le', ← hk, ← div_eq_mul_inv, div_le_iff₀ (Real.exp_pos _)]
  exact key

/-- upper bound -/
theorem lag_le {f d : ℝ → ℝ} {r l T hi : ℝ} (hl : 0 < l) (hc : ContinuousOn f (Set.Ici 0))
    (hd : ∀ t, 0 ≤ t → HasDerivWithinAt f ((d t - r * f t) / l) (Set.Ici t) t) (hhi : ∀ t, 0 ≤ t → t ≤ T → d t ≤ r * hi) {t : ℝ}
    (h0 : 0 ≤ t) (ht : t ≤ T) : f t ≤ hi + (f 0 - hi) * Real.exp (-(r / l) * t) := by
  have := lag_ge (f := fun t => -f t) (d := fun t => -d t) (r := r) (l := l) (T := T) (lo := -hi) hl hc.neg
    (fun t ht => ((hd t ht).neg).congr_deriv (by ring)) (fun t h1 h2 => by linarith [hhi t h1 h2]) h0 ht
  have e : (-f 0 - -hi) * Real.exp (-(r / l) * t) = -((f 0 - hi) * Real.exp (-(r / l) * t)) := by ring
  rw [e] at this
  linarith

/-! ## Drives with two currents -/

section two

variable {A S C P G τ H : Type} {k : ℕ}

/-- The solver moves along the solutions of the differential equation of the system, up to the requested time. -/
structure TracksTwo (p : Parts ℝ (DcY ℝ) (List ℝ) A S C P) (mp : DcParams ℝ) (el : (Fin 2 → ℝ) → (Fin k → ℝ) → ℝ → Fin 2 → ℝ)
    (mech : ℝ → (Fin 1 → ℝ) → ℝ → Fin 1 → ℝ) : Prop where
  initial : ∀ s y t, p.solverY (p.setInitial s y t) = y ∧ p.solverT (p.setInitial s y t) = t
  time : ∀ s u t, p.solverT (p.integrate s u t) = t
  state : ∀ s v t w i j, p.solverY s = ⟨[w], [i, j]⟩ → p.solverT s ≤ t → ∃ z : ℝ → Fin 3 → ℝ,
    Runs (systemEquation mech (dcTorque mp) el 0 none) (fun _ => v) z ∧ z 0 = ![w, i, j] ∧
    p.solverY (p.integrate s (List.ofFn v) t) = ⟨[z (t - p.solverT s) 0], [z (t - p.solverT s) 1, z (t - p.solverT s) 2]⟩

/-- Converters that do what they are told: the duty cycles `a` in one piece. -/
def Obeys (pw : Power (List ℝ) C) (iIn : List ℝ → List ℝ) (n : ℕ) (fed : C → Prop) : Prop :=
  ∀ c t (a : List ℝ), fed c → a.length = n → (∀ x ∈ a, |x| ≤ 1) → ∃ c1 T, pw.setAction c a t = (c1, .ok [T]) ∧ fed c1 ∧
    ∀ i j, (∃ w, pw.iSup c1 (iIn [i, j]) = .ok w) ∧ ∀ t', pw.convert c1 (iIn [i, j]) t' = (c1, .ok a)

/-- A step of such a drive. -/
theorem two_step {p : Parts ℝ (DcY ℝ) (List ℝ) (List ℝ) S C P} {pw : Power (List ℝ) C} (hu : Uses p pw) (hi : Ideal p 60)
    {mp : DcParams ℝ} {el : (Fin 2 → ℝ) → (Fin k → ℝ) → ℝ → Fin 2 → ℝ} {mech : ℝ → (Fin 1 → ℝ) → ℝ → Fin 1 → ℝ}
    (ht : TracksTwo p mp el mech) {iIn : List ℝ → List ℝ} {fed : C → Prop} (ho : Obeys pw iIn k fed) (tq : List ℝ → ℝ) (limits : List ℝ)
    {tau : ℝ} (htau : 0 ≤ tau) {st : St ℝ S C P} (hc : fed st.conv) {w i j : ℝ} (hy : p.solverY st.solver = ⟨[w], [i, j]⟩)
    (hT : p.solverT st.solver = st.t) (a : Fin k → ℝ) (ha : ∀ n, |a n| ≤ 1) :
    ∃ z : ℝ → Fin 3 → ℝ, Runs (systemEquation mech (dcTorque mp) el 0 none) (fun _ n => a n * 60) z ∧ z 0 = ![w, i, j] ∧
      ∃ st', simulate p (dcFrame iIn tq [0, 1] k 1) tau limits st (List.ofFn a)
          = (st', divLimits ([z tau 0, tq [z tau 1, z tau 2], z tau 1, z tau 2] ++ List.ofFn (fun n => a n * 60) ++ [60]) limits) ∧
        fed st'.conv ∧ p.solverY st'.solver = ⟨[z tau 0], [z tau 1, z tau 2]⟩ ∧ p.solverT st'.solver = st'.t := by
  obtain ⟨c1, T, e1, e2, e3⟩ := ho st.conv st.t (List.ofFn a) hc (List.length_ofFn) (by
    intro x hx
    rw [List.mem_ofFn] at hx
    obtain ⟨n, rfl⟩ := hx
    exact ha n)
  obtain ⟨⟨is, e4⟩, e5⟩ := e3 i j
  obtain ⟨u1, u2, u3, u4⟩ := hu
  obtain ⟨z, z1, z2, z3⟩ := ht.state st.solver (fun n => a n * 60) (st.t + tau) w i j hy (by rw [hT]; linarith)
  have e6 : st.t + tau - p.solverT st.solver = tau := by rw [hT]; ring
  rw [e6] at z3
  refine ⟨z, z1, z2, ?_⟩
  have hset : p.setAction st.conv (List.ofFn a) st.t = (c1, .ok [T]) := by rw [u1]; exact e1
  have hact : ∀ (y : DcY ℝ) (b : List ℝ), (dcFrame iIn tq [0, 1] k 1 : Frame ℝ (DcY ℝ) (List ℝ) (List ℝ)).action y b = b := fun _ _ => rfl
  have hprod : products (List.ofFn a) [60] = List.ofFn fun n => a n * 60 := by
    have : (fun x : ℝ => [(60 : ℝ)].map fun s => x * s) = pure ∘ fun x => x * 60 := by funext x; rfl
    rw [products, this, List.flatMap_pure_eq_map, List.map_ofFn]
    rfl
  have hpiece : piece p (dcFrame iIn tq [0, 1] k 1) (dcFrame iIn tq [0, 1] k 1 : Frame ℝ (DcY ℝ) (List ℝ) (List ℝ)).lastU { st with conv := c1 }
      (st.t + tau)
      = ({ st with conv := c1, supply := (p.getVoltage st.supply st.t is).1,
                   solver := p.integrate st.solver (List.ofFn fun n => a n * 60) (st.t + tau) },
        .ok (List.ofFn (fun n => a n * 60), [60])) := by
    unfold piece
    have hin : (dcFrame iIn tq [0, 1] k 1 : Frame ℝ (DcY ℝ) (List ℝ) (List ℝ)).iIn (p.solverY st.solver) = iIn [i, j] := by rw [hy]; rfl
    have hsup : p.iSup c1 (iIn [i, j]) = .ok is := by rw [u3]; exact e4
    have hconv : p.convert c1 (iIn [i, j]) (p.solverT st.solver) = (c1, .ok (List.ofFn a)) := by rw [u2]; exact e5 _
    have hvol := hi.voltage st.supply st.t is
    simp only [hin, hsup, hconv, hvol, hprod]
    rfl
  refine ⟨⟨st.t + tau, st.k + 1, p.integrate st.solver (List.ofFn fun n => a n * 60) (st.t + tau), c1, (p.getVoltage st.supply st.t is).1⟩,
    ?_, e2, z3, ht.time _ _ _⟩
  unfold simulate
  simp only [hact, hset, List.dropLast_singleton, pieces, Call.bind, hpiece, ht.time]
  rw [z3]
  have hrep : (dcFrame iIn tq [0, 1] k 1 : Frame ℝ (DcY ℝ) (List ℝ) (List ℝ)).report (p.solverY st.solver)
      ⟨[z tau 0], [z tau 1, z tau 2]⟩ (List.ofFn fun n => a n * 60) [60]
      = .ok ([z tau 0, tq [z tau 1, z tau 2], z tau 1, z tau 2] ++ List.ofFn (fun n => a n * 60) ++ [60]) := by
    simp only [dcFrame, dcReport, assign, List.length_ofFn]
    simp [getE, bind, Except.bind, pure, Except.pure]
  rw [hrep]
  rfl

/-- The currents of such a drive are lags. -/
theorem two_currents {mp : DcParams ℝ} {el : (Fin 2 → ℝ) → (Fin k → ℝ) → ℝ → Fin 2 → ℝ} {mech : ℝ → (Fin 1 → ℝ) → ℝ → Fin 1 → ℝ}
    {v : Fin k → ℝ} {x y : ℝ} (hel : ∀ s w, el s v w = dcOde mp s ![x, y] w) {z : ℝ → Fin 3 → ℝ}
    (hz : Runs (systemEquation mech (dcTorque mp) el 0 none) (fun _ => v) z) :
    (∀ t, 0 ≤ t → HasDerivWithinAt (fun t => z t 1) ((x - mp.lePrime * z t 0 * z t 2 - mp.ra * z t 1) / mp.la) (Set.Ici t) t) ∧
    ∀ t, 0 ≤ t → HasDerivWithinAt (fun t => z t 2) ((y - mp.re * z t 2) / mp.le) (Set.Ici t) t := by
  refine ⟨fun t ht => ?_, fun t ht => ?_⟩
  · have e : (systemEquation mech (dcTorque mp) el 0 none t (z t) v : Fin 3 → ℝ) 1 = el ![z t 1, z t 2] v (z t 0) 0 := by
      have h : (fun i : Fin 2 => z t (Fin.natAdd 1 i)) = ![z t 1, z t 2] := by
        funext i; fin_cases i <;> rfl
      show el (fun i : Fin 2 => z t (Fin.natAdd 1 i)) v (z t 0) 0 = _
      rw [h]
    have := (hz 1).2 t ht
    dsimp only at this
    rw [e, hel] at this
    refine this.congr_deriv ?_
    simp [dcOde, dcConstants, rowsDiv, Matrix.mulVec, dotProduct, Fin.sum_univ_succ]
    ring
  · have e : (systemEquation mech (dcTorque mp) el 0 none t (z t) v : Fin 3 → ℝ) 2 = el ![z t 1, z t 2] v (z t 0) 1 := by
      have h : (fun i : Fin 2 => z t (Fin.natAdd 1 i)) = ![z t 1, z t 2] := by
        funext i; fin_cases i <;> rfl
      show el (fun i : Fin 2 => z t (Fin.natAdd 1 i)) v (z t 0) 1 = _
      rw [h]
    have := (hz 2).2 t ht
    dsimp only at this
    rw [e, hel] at this
    refine this.congr_deriv ?_
    simp [dcOde, dcConstants, rowsDiv, Matrix.mulVec, dotProduct, Fin.sum_univ_succ]
    ring

/-- A step at constant speed: the voltage of the armature compensates the voltage induced at its beginning and would drive the current
`top`; the excitation current grows by at most `rise`. -/
theorem armature_step {mp : DcParams ℝ} (hre : 0 < mp.re) (hla : 0 < mp.la) (hle : 0 < mp.le) (hlp : 0 ≤ mp.lePrime)
    {el : (Fin 2 → ℝ) → (Fin k → ℝ) → ℝ → Fin 2 → ℝ}
    {v : Fin k → ℝ} {w i j top low rise tau y : ℝ} (hw : 0 ≤ w)
    (hel : ∀ s w', el s v w' = dcOde mp s ![mp.ra * top + mp.lePrime * w * j, y] w') {z : ℝ → Fin 3 → ℝ}
    (hz : Runs (systemEquation constMech (dcTorque mp) el 0 none) (fun _ => v) z) (h0 : z 0 = ![w, i, j]) (htau : 0 ≤ tau)
    (hj : j ≤ y / mp.re) (hrise : (y / mp.re - j) * (mp.re / mp.le * tau) ≤ rise) (hlow : mp.ra * low + mp.lePrime * w * rise ≤ mp.ra * top) :
    z tau 0 = w ∧ z tau 2 = y / mp.re + (j - y / mp.re) * Real.exp (-(mp.re / mp.le) * tau) ∧ z tau 2 ≤ j + rise ∧
      low + (i - low) * Real.exp (-(mp.ra / mp.la) * tau) ≤ z tau 1 ∧ z tau 1 ≤ top + (i - top) * Real.exp (-(mp.ra / mp.la) * tau) := by
  obtain ⟨d1, d2⟩ := two_currents hel hz
  have hspeed : ∀ t, 0 ≤ t → z t 0 = w := by
    intro t ht
    have := stays_const (f := fun t => z t 0) (hz 0).1 (fun t ht => (hz 0).2 t ht) ht
    simpa [h0] using this
  have z1 : z 0 1 = i := by rw [h0]; rfl
  have z2 : z 0 2 = j := by rw [h0]; rfl
  set E := y / mp.re with hE
  have hy : mp.re * E = y := by rw [hE]; field_simp
  have ex : ∀ t, 0 ≤ t → z t 2 = E + (j - E) * Real.exp (-(mp.re / mp.le) * t) := by
    intro t ht
    have a1 := lag_ge (T := t) (lo := E) hle (hz 2).1 d2 (fun _ _ _ => hy.le) ht le_rfl
    have a2 := lag_le (T := t) (hi := E) hle (hz 2).1 d2 (fun _ _ _ => hy.ge) ht le_rfl
    rw [z2] at a1 a2
    exact le_antisymm a2 a1
  have hb : ∀ t, 0 ≤ t → t ≤ tau → j ≤ z t 2 ∧ z t 2 ≤ j + rise := by
    intro t ht ht'
    have q1 : Real.exp (-(mp.re / mp.le) * t) ≤ 1 := by
      rw [Real.exp_le_one_iff]
      have := mul_nonneg (div_pos hre hle).le ht
      linarith
    have q2 := Real.add_one_le_exp (-(mp.re / mp.le) * t)
    rw [ex t ht]
    constructor
    · nlinarith
    · have q3 : (E - j) * (1 - Real.exp (-(mp.re / mp.le) * t)) ≤ (E - j) * (mp.re / mp.le * t) :=
        mul_le_mul_of_nonneg_left (by linarith) (by linarith)
      have q4 : (E - j) * (mp.re / mp.le * t) ≤ (E - j) * (mp.re / mp.le * tau) :=
        mul_le_mul_of_nonneg_left (mul_le_mul_of_nonneg_left ht' (div_pos hre hle).le) (by linarith)
      nlinarith
  have hk : 0 ≤ mp.lePrime * w := mul_nonneg hlp hw
  refine ⟨hspeed tau htau, ex tau htau, (hb tau htau le_rfl).2, ?_, ?_⟩
  · have := lag_ge (T := tau) (lo := low) (r := mp.ra) hla (hz 1).1 d1 (fun t ht ht' => by
      rw [hspeed t ht]
      have := mul_le_mul_of_nonneg_left (hb t ht ht').2 hk
      linarith) htau le_rfl
    rwa [z1] at this
  · have := lag_le (T := tau) (hi := top) (r := mp.ra) hla (hz 1).1 d1 (fun t ht ht' => by
      rw [hspeed t ht]
      have := mul_le_mul_of_nonneg_left (hb t ht ht').1 hk
      linarith) htau le_rfl
    rwa [z1] at this

/-- A step of an unloaded drive with the inertia `J` at constant voltages, below the speed `W`. -/
theorem running_up_step {mp : DcParams ℝ} (hra : 0 < mp.ra) (hre : 0 < mp.re) (hla : 0 < mp.la) (hle : 0 < mp.le) (hlp : 0 ≤ mp.lePrime)
    {el : (Fin 2 → ℝ) → (Fin k → ℝ) → ℝ → Fin 2 → ℝ} {jl tl : ℝ} {rs : List ℝ} (hp : PolyParams 0 0 0 jl tl rs) {J : ℝ} (hJ : jl + rs.sum = J)
    {v : Fin k → ℝ} {w i j x y low W tau : ℝ} (hel : ∀ s w', el s v w' = dcOde mp s ![x, y] w') {z : ℝ → Fin 3 → ℝ}
    (hz : Runs (systemEquation (polyMech 0 0 0 jl tl rs) (dcTorque mp) el 0 none) (fun _ => v) z) (h0 : z 0 = ![w, i, j]) (htau : 0 ≤ tau)
    (hw : 0 ≤ w) (hi0 : 0 ≤ i) (hi : i ≤ x / mp.ra) (hj0 : 0 ≤ j) (hj : j ≤ y / mp.re) (hlow0 : 0 ≤ low) (hW0 : 0 ≤ W)
    (hW : w ^ 2 + (mp.la * i ^ 2 + x ^ 2 / (2 * mp.ra) * tau) / J ≤ W ^ 2)
    (hlow : mp.ra * low + mp.lePrime * W * (y / mp.re) ≤ x) :
    w ≤ z tau 0 ∧ z tau 2 = y / mp.re + (j - y / mp.re) * Real.exp (-(mp.re / mp.le) * tau) ∧ z tau 2 ≤ y / mp.re ∧ j ≤ z tau 2 ∧
      low + (i - low) * Real.exp (-(mp.ra / mp.la) * tau) ≤ z tau 1 ∧ z tau 1 ≤ x / mp.ra ∧
      w + mp.lePrime * min i low * j / J * tau ≤ z tau 0 := by
  have hJ0 : 0 < J := by
    rw [← hJ]; exact add_pos_of_pos_of_nonneg hp.j (List.sum_nonneg hp.rotors)
  obtain ⟨d1, d2⟩ := two_currents hel hz
  have d0 : ∀ t, 0 ≤ t → HasDerivWithinAt (fun t => z t 0) (mp.lePrime * z t 1 * z t 2 / J) (Set.Ici t) t := by
    intro t ht
    have := (hz 0).2 t ht
    have e : (systemEquation (polyMech 0 0 0 jl tl rs) (dcTorque mp) el 0 none t (z t) v : Fin 3 → ℝ) 0
        = (polyOf 0 0 0 jl tl rs).mechanicalOde t (z t 0) (mp.lePrime * z t 1 * z t 2) := rfl
    rwa [e, unloaded hp, hJ] at this
  have z0 : z 0 0 = w := by rw [h0]; rfl
  have z1 : z 0 1 = i := by rw [h0]; rfl
  have z2 : z 0 2 = j := by rw [h0]; rfl
  set E := y / mp.re with hE
  have hy : mp.re * E = y := by rw [hE]; field_simp
  have ex : ∀ t, 0 ≤ t → z t 2 = E + (j - E) * Real.exp (-(mp.re / mp.le) * t) := by
    intro t ht
    have a1 := lag_ge (T := t) (lo := E) hle (hz 2).1 d2 (fun _ _ _ => hy.le) ht le_rfl
    have a2 := lag_le (T := t) (hi := E) hle (hz 2).1 d2 (fun _ _ _ => hy.ge) ht le_rfl
    rw [z2] at a1 a2
    exact le_antisymm a2 a1
  have hb : ∀ t, 0 ≤ t → j ≤ z t 2 ∧ z t 2 ≤ E := by
    intro t ht
    have q1 : Real.exp (-(mp.re / mp.le) * t) ≤ 1 := by
      rw [Real.exp_le_one_iff]
      have := mul_nonneg (div_pos hre hle).le ht
      linarith
    have q2 := (Real.exp_pos (-(mp.re / mp.le) * t)).le
    rw [ex t ht]
    constructor <;> nlinarith
  -- energy
  have energy : ∀ t, 0 ≤ t → t ≤ tau → |z t 0| ≤ W := by
    intro t ht ht'
    have := stays_nonneg (f := fun t => (mp.la * i ^ 2 + J * w ^ 2 + x ^ 2 / (2 * mp.ra) * t) - (mp.la * z t 1 ^ 2 + J * z t 0 ^ 2))
      (f' := fun t => x ^ 2 / (2 * mp.ra) - (2 * (x * z t 1 - mp.ra * z t 1 ^ 2)))
      ((by fun_prop : Continuous fun t : ℝ => mp.la * i ^ 2 + J * w ^ 2 + x ^ 2 / (2 * mp.ra) * t).continuousOn.sub
        ((continuousOn_const.mul ((hz 1).1.pow 2)).add (continuousOn_const.mul ((hz 0).1.pow 2))))
      (fun t ht => by
        have h1 : HasDerivWithinAt (fun t : ℝ => mp.la * i ^ 2 + J * w ^ 2 + x ^ 2 / (2 * mp.ra) * t) (x ^ 2 / (2 * mp.ra)) (Set.Ici t) t := by
          have := (((hasDerivAt_id t).const_mul (x ^ 2 / (2 * mp.ra))).const_add (mp.la * i ^ 2 + J * w ^ 2)).hasDerivWithinAt (s := Set.Ici t)
          simpa using this
        refine (h1.sub ((((d1 t ht).pow 2).const_mul mp.la).add (((d0 t ht).pow 2).const_mul J))).congr_deriv ?_
        simp only [Nat.cast_ofNat, Nat.add_one_sub_one, pow_one]
        field_simp
        ring)
      (by simp [z0, z1]) (fun t ht _ => by
        have : x ^ 2 / (2 * mp.ra) - 2 * (x * z t 1 - mp.ra * z t 1 ^ 2) = (x - 2 * mp.ra * z t 1) ^ 2 / (2 * mp.ra) := by
          field_simp
          ring
        rw [this]
        positivity) t ht
    have h2 : x ^ 2 / (2 * mp.ra) * t ≤ x ^ 2 / (2 * mp.ra) * tau := mul_le_mul_of_nonneg_left ht' (by positivity)
    have h3 : 0 ≤ mp.la * z t 1 ^ 2 := by positivity
    have h4 : J * z t 0 ^ 2 ≤ J * W ^ 2 := by
      have h5 := mul_le_mul_of_nonneg_left hW hJ0.le
      have h6 : J * (w ^ 2 + (mp.la * i ^ 2 + x ^ 2 / (2 * mp.ra) * tau) / J) = J * w ^ 2 + (mp.la * i ^ 2 + x ^ 2 / (2 * mp.ra) * tau) := by
        field_simp
      rw [h6] at h5
      linarith
    exact abs_le_of_sq_le_sq (le_of_mul_le_mul_left h4 hJ0) hW0
  have hE0 : 0 ≤ E := hj0.trans hj
  have low1 : ∀ t, 0 ≤ t → t ≤ tau → low + (i - low) * Real.exp (-(mp.ra / mp.la) * t) ≤ z t 1 := by
    intro t ht ht'
    have := lag_ge (T := tau) (lo := low) (r := mp.ra) hla (hz 1).1 d1 (fun s hs hs' => by
      obtain ⟨q1, q2⟩ := hb s hs
      have q3 : mp.lePrime * z s 0 * z s 2 ≤ mp.lePrime * W * E := by
        rw [mul_assoc, mul_assoc]
        refine mul_le_mul_of_nonneg_left ?_ hlp
        exact mul_le_mul ((le_abs_self _).trans (energy s hs hs')) q2 (hj0.trans q1) hW0
      linarith) ht ht'
    rwa [z1] at this
  have hmin : ∀ t, 0 ≤ t → t ≤ tau → min i low ≤ z t 1 := by
    intro t ht ht'
    have h1 := low1 t ht ht'
    have q1 : Real.exp (-(mp.ra / mp.la) * t) ≤ 1 := by
      rw [Real.exp_le_one_iff]
      have := mul_nonneg (div_pos hra hla).le ht
      linarith
    have q2 := (Real.exp_pos (-(mp.ra / mp.la) * t)).le
    have m1 := min_le_left i low
    have m2 := min_le_right i low
    nlinarith
  have hm0 : 0 ≤ min i low := le_min hi0 hlow0
  have grow : ∀ t, 0 ≤ t → t ≤ tau → w + mp.lePrime * min i low * j / J * t ≤ z t 0 := by
    intro t ht ht'
    refine image_le_of_deriv_right_le_deriv_boundary (f := fun t => w + mp.lePrime * min i low * j / J * t)
      (f' := fun _ => mp.lePrime * min i low * j / J) (a := 0) (b := t)
      (B := fun t => z t 0) (B' := fun t => mp.lePrime * z t 1 * z t 2 / J) (by fun_prop)
      (fun s _ => ?_) (by simp [z0]) ((hz 0).1.mono fun s hs => hs.1)
      (fun s hs => d0 s hs.1) (fun s hs => ?_) ⟨ht, le_rfl⟩
    · have := (((hasDerivAt_id s).const_mul (mp.lePrime * min i low * j / J)).const_add w).hasDerivWithinAt (s := Set.Ici s)
      simpa using this
    · refine div_le_div_of_nonneg_right ?_ hJ0.le
      rw [mul_assoc, mul_assoc]
      refine mul_le_mul_of_nonneg_left ?_ hlp
      exact mul_le_mul (hmin s hs.1 (hs.2.le.trans ht')) (hb s hs.1).1 hj0 (hm0.trans (hmin s hs.1 (hs.2.le.trans ht')))
  have hge : ∀ t, 0 ≤ t → t ≤ tau → 0 ≤ z t 0 := by
    intro t ht ht'
    have := grow t ht ht'
    have h1 : 0 ≤ mp.lePrime * min i low * j / J * t := by positivity
    linarith
  refine ⟨?_, ex tau htau, (hb tau htau).2, (hb tau htau).1, low1 tau htau le_rfl, ?_, grow tau htau le_rfl⟩
  · have := grow tau htau le_rfl
    have h1 : 0 ≤ mp.lePrime * min i low * j / J * tau := by positivity
    linarith
  · have hx : mp.ra * (x / mp.ra) = x := by field_simp
    have := lag_le (T := tau) (hi := x / mp.ra) (r := mp.ra) hla (hz 1).1 d1 (fun s hs hs' => by
      rw [hx]
      have := mul_nonneg (mul_nonneg hlp (hge s hs hs')) (hj0.trans (hb s hs).1)
      linarith) htau le_rfl
    rw [z1] at this
    have q2 := (Real.exp_pos (-(mp.ra / mp.la) * tau)).le
    nlinarith

end two

/-! ## Registered environments -/

/-- The reward of an environment in which one state is controlled. -/
theorem single_reward {t : MotorType} {n : String} (hn : n ∈ stateNames t) {lower : String → String} (hlower : ∀ n ∈ stateNames t, lower n = n)
    {referenced : List Bool} (href : referenced.length = (stateNames t).length) {w : Wse String}
    (hw : setModules lower (Wse.init (some (.dict [(n, 1)])) false none (9 / 10) (.scalar 1) (.num 0))
      ⟨stateNames t, low t, high t, referenced⟩ = .ok w)
    {s ref : List ℝ} (hs : s.length = (stateNames t).length) (hr : ref.length = (stateNames t).length) {x : ℝ}
    (hx : number (Reward.reward w s ref 0) = .ok x) :
    x = -(|entry s ((stateNames t).idxOf n) - entry ref ((stateNames t).idxOf n)| / (1 - entry (low t) ((stateNames t).idxOf n))) := by
  have hsound : Reward.Sound (⟨stateNames t, low t, high t, referenced⟩ : Modules String) := by
    refine ⟨(low_spec t).1, by simp [high], href, fun i hi => ?_⟩
    show entry (low t) i < entry (high t) i
    rw [entry_high _ hi]
    linarith [((low_spec t).2 i hi).2]
  obtain ⟨ps, ws, v, q1, q2, -, -, q3⟩ := reward_spec lower _ hsound _ _ _ _ _ _ w hw
  have hl : lower n = n := hlower _ hn
  have hi := List.idxOf_lt_length_of_mem hn
  have hws : ∀ i, i < (stateNames t).length → entry ws i = if i = (stateNames t).idxOf n then 1 else 0 := by
    intro i hi'
    simp [setStateArray, stateDictToStateArray, hl, hn] at q2
    rw [← q2]
    simp only [entry, List.getD_eq_getElem?_getD]
    rw [List.getElem?_eq_getElem (by simpa using hi')]
    simp only [List.getElem_zipWith, List.getElem_replicate, Option.getD_some]
    by_cases h : i = (stateNames t).idxOf n
    · subst h
      simp [lookup]
    · have : n ≠ (stateNames t)[i] := by
        rintro rfl
        exact h ((stateNames_nodup t).idxOf_getElem i hi').symm
      simp [lookup, h, this]
  have hns : ∀ i, i < (stateNames t).length → entry ps i = 1 := by
    intro i hi'
    simp [setStateArray] at q1
    rw [← q1]
    simp [entry, hi']
  have q3 := q3 s ref hs hr 0
  simp only [Bool.false_eq_true, if_false] at q3
  rw [q3] at hx
  have hsum : errorSum (⟨stateNames t, low t, high t, referenced⟩ : Modules String) ws ps s ref
      = |entry s ((stateNames t).idxOf n) - entry ref ((stateNames t).idxOf n)| / (1 - entry (low t) ((stateNames t).idxOf n)) := by
    rw [errorSum, Finset.sum_eq_single ((stateNames t).idxOf n)]
    · rw [hws _ hi, hns _ hi, if_pos rfl, one_mul, Real.rpow_one, relError, entry_high _ hi]
    · intro b hb hne
      rw [hws b (Finset.mem_range.1 hb), if_neg hne, zero_mul]
    · intro h
      exact absurd (Finset.mem_range.2 hi) h
  rw [hsum] at hx
  cases v with
  | fin y =>
    simp only [mix, number, Except.ok.injEq] at hx
    rw [← hx]
    simp [Bias.value]
  | inf b => simp [mix, number] at hx
  | nan => simp [mix, number] at hx

/-- A Wiener process without `limit_margin` stays below the nominal value. -/
theorem nominal_references {R : Rng H} (hR : RngOk R) {t : MotorType} {limits nominal : List ℝ} {n : String} {σ : ℚ × ℚ}
    (hn : NominalOk t limits nominal [n]) {gen : RefGen τ ℝ} {new : τ → Prop} {reseeded : τ → τ → Prop}
    (hg : Generates R t limits nominal (.one ⟨n, σ, none⟩) τ gen new reseeded) :
    ∃ refHigh fresh ready, Provides gen (low t) refHigh fresh ready ∧ (∀ s, new s → fresh s) ∧
      (∀ s s', fresh s → reseeded s s' → fresh s') ∧ List.Forall₂ (· ≤ ·) refHigh (high t) ∧
      entry refHigh ((stateNames t).idxOf n) = entry nominal ((stateNames t).idxOf n) / entry limits ((stateNames t).idxOf n) := by
  cases hg with
  | one g c h =>
    obtain ⟨hs, hmask⟩ := mask_ok h.mask
    simp only at hs hmask
    obtain ⟨b1, b2, b3⟩ := wiener_bounds h hn (by simp [MarginOk])
    simp only at b1 b2 b3
    have hi := List.idxOf_lt_length_of_mem hs
    have hlen := (low_spec t).1
    have hh : c.high = entry nominal ((stateNames t).idxOf n) / entry limits ((stateNames t).idxOf n) := by
      have hmar := h.margin
      simp only [marginArg, setMargin, Except.ok.injEq, Prod.mk.injEq] at hmar
      rw [← hmar.2, entry_high _ hi]
      ring
    rw [entry_high _ hi] at b3
    have hset : ∀ i, i < (stateNames t).length → entry ((high t).set ((stateNames t).idxOf n) c.high) i
        = if i = (stateNames t).idxOf n then c.high else 1 := by
      intro i hi'
      have hl : (high t).length = (stateNames t).length := by simp [high]
      simp only [entry, List.getD_eq_getElem?_getD, List.getElem?_set]
      by_cases h1 : i = (stateNames t).idxOf n
      · rw [if_pos h1.symm, if_pos (hl ▸ hi), if_pos h1]
        rfl
      · rw [if_neg (Ne.symm h1), if_neg h1]
        have := entry_high t hi'
        rwa [entry, List.getD_eq_getElem?_getD] at this
    obtain ⟨fresh, ready, h1, h2, h3⟩ := c114_references hR (.wiener (.pair σ.1 σ.2)) ⟨_, _, rfl⟩ (.pair 500 2000) trivial
      (by norm_num [Range.least]) c h.make h.length (low t) ((high t).set ((stateNames t).idxOf n) c.high) (by rw [hlen]; simp [high])
      (by rw [hmask, hlen]; simp) (by rw [hmask]; simpa using hs) b2 (by
        intro i hi'
        rw [hlen] at hi'
        rw [hset i hi']
        by_cases hc' : i = (stateNames t).idxOf n
        · subst hc'
          rw [if_pos (by rw [hmask, List.getElem?_map, List.getElem?_eq_getElem hi]; simp), if_pos rfl]
          exact ⟨b1, le_rfl⟩
        · rw [if_neg (fun hc => hc' (mask_at (stateNames_nodup t) (by rw [hmask] at hc; exact hc))), if_neg hc']
          exact ⟨((low_spec t).2 i hi').2, zero_le_one⟩)
    refine ⟨_, fresh, ready, h1, fun s hs => h2 s hs.1 hs.2, fun s s' hf hr => h3 s s' hf ?_ ?_, ?_, ?_⟩
    · rw [hr]
    · rw [hr]
    · rw [List.forall₂_iff_get]
      refine ⟨by simp, fun i p1 p2 => ?_⟩
      simp only [List.get_eq_getElem, List.getElem_set]
      have : (high t)[i] = 1 := by simp [high]
      split_ifs
      · rw [this]; exact b3
      · exact le_rfl
    · rw [hset _ hi, if_pos rfl, hh]

variable {A S C P G τ H : Type}

/-- Steering a registered environment in which one state is controlled. -/
theorem registered_steered {R : Rng H} (hR : RngOk R) (m : Registry.Motor) {name : String} {d : Defaults}
    (hd : make m.envId = some (name, d)) {n : String} (hn : n ∈ stateNames d.motor) (hweights : d.weights = [(n, 1)])
    {D : Drive} (hD : Drives d.motor D) {tau : ℝ} {pw : Power A C} {conv : C} {space : A → Prop}
    (hpw : Powered tau d.action d.converter A C pw conv space) (p : Parts ℝ D.Y D.U A S C P) (hu : Uses p pw) (hs : Shaped p D.shape)
    (limits nominal : List ℝ) (hl : limits.length = (stateNames d.motor).length)
    (hN : NominalOk d.motor limits nominal (d.references.list.map (·.state)))
    (start : G → G × D.Y) (hstart : ∀ g, D.shape (start g).2) (seedSystem : ℕ → G → G)
    {gen : RefGen τ ℝ} {new : τ → Prop} {reseeded : τ → τ → Prop} (hg : Generates R d.motor limits nominal d.references τ gen new reseeded)
    {refHigh : List ℝ} {fresh ready : τ → Prop} (hprov : Provides gen (low d.motor) refHigh fresh ready) (hnew : ∀ s, new s → fresh s)
    (hres : ∀ s s', fresh s → reseeded s s' → fresh s') (hhigh : List.Forall₂ (· ≤ ·) refHigh (high d.motor))
    (seedRef : ℕ → τ → τ) (hseed : ∀ n s, reseeded s (seedRef n s)) (lower : String → String)
    (hlower : ∀ n ∈ stateNames d.motor, lower n = n) (nCb : ℕ) (x : World S C P G τ) (hx : x.sys.conv = conv) (hf : new x.ref)
    (J : ℕ → St ℝ S C P → Prop) (hJ0 : ∀ st g, st.conv = conv → J 0 (reset p D.rep limits st (start g).2).1)
    (goal : List ℝ → Prop) {box : A → Prop} (hbox : ∀ a, box a → space a) (hne : ∃ a, space a)
    (hJ : ∀ k st, J k st → ∃ a st' s, box a ∧ simulate p (D.frame A) d.tau limits st a = (st', .ok s) ∧
      ¬ Violates lower "all_states" (stateNames d.motor) d.limited d.squares s ∧ (goal s ∨ J (k + 1) st'))
    {N : ℕ} (hend : ∀ st, ¬ J N st) :
    ∃ mods, build (Registry.setup d p (D.frame A) D.rep limits start seedSystem gen seedRef lower nCb) = .ok mods ∧
      ∀ seed, ∃ actions : List A, (∀ a ∈ actions, box a) ∧ ∃ a r,
        ((.step a : Core.Op (World S C P G τ) A), Core.Out.step (.done r))
          ∈ (Core.run mods (Core.Env.init mods x) (.reset seed :: actions.map .step)).2 ∧
        r.terminated = false ∧ goal r.obs.1 ∧ ∃ ref, Refs.Within (low d.motor) refHigh ref ∧
          r.reward = -(|entry r.obs.1 ((stateNames d.motor).idxOf n) - entry ref ((stateNames d.motor).idxOf n)|
            / (1 - entry (low d.motor) ((stateNames d.motor).idxOf n))) := by
  obtain ⟨name', d', hd', hmatch, hfit⟩ := entry_of m
  rw [hd, Option.some.injEq, Prod.mk.injEq] at hd'
  obtain ⟨rfl, rfl⟩ := hd'
  obtain ⟨href, -⟩ := generates_provides hR hg hN hfit.margins
  obtain ⟨w, mo, idx, e1, -, -⟩ := default_modules hfit hmatch.total p limits start seedSystem gen seedRef lower hlower nCb
  rw [hfit.converter] at hpw
  obtain ⟨idle, ha, hi⟩ := drives_accept hD hpw p hu hs d.tau limits hl
  have hcoh := default_coherent (A := A) (S := S) (C := C) (P := P) (D := D) hfit hmatch.positive p limits start seedSystem href seedRef
    lower hlower nCb
  obtain ⟨lo, hi', v, w1, w2, w3⟩ := reward_of hcoh e1
  have hwithin : ∀ r, Refs.Within (low d.motor) refHigh r → Refs.Within (low d.motor) (high d.motor) r := fun r hr =>
    ⟨hr.1, forall₂_le_trans hr.2 hhigh⟩
  refine ⟨comps (Registry.setup d p (D.frame A) D.rep limits start seedSystem gen seedRef lower nCb) w mo idx,
    by simp only [build, e1, Except.map], fun seed => ?_⟩
  have hinit : (Core.Env.init (comps (Registry.setup d p (D.frame A) D.rep limits start seedSystem gen seedRef lower nCb) w mo idx) x).comp
      = x := by unfold Env.init; rw [fire_comp]
  obtain ⟨env', s, o, h1, h2, h3, h4, g, h5⟩ := reset_detail e1 ha hne hstart hprov (fun n t ht => hres t _ ht (hseed n t))
    (env := Core.Env.init (comps (Registry.setup d p (D.frame A) D.rep limits start seedSystem gen seedRef lower nCb) w mo idx) x)
    (ended := true) ⟨by unfold Env.init; rw [fire_terminated], by rw [hinit, hx]; exact hi, by rw [hinit]; exact hnew _ hf, by simp⟩ seed
  obtain ⟨actions, a1, a, r, s, ref, a2, a3, a4, a5, a6, a7, a8⟩ := steered hcoh e1 ha hprov
    (fun s r e f d hd => (w3 s r e (hwithin r f) d hd).imp fun x h => h.1) J goal hbox hJ hend N 0 (Nat.zero_add N) env' h3
    (by rw [h5, hinit]; exact hJ0 _ _ hx)
  have hobs : r.obs.1 = s := by
    rw [a6.2.1]
    exact map_entry (stateNames_nodup _) a5
  refine ⟨actions, a1, a, r, ?_, a3, by rw [hobs]; exact a4, ref, a7, ?_⟩
  · rw [Core.run, Core.apply]
    erw [h1]
    exact List.mem_cons_of_mem _ a2
  · rw [hobs]
    obtain ⟨-, -, -, hw, -⟩ := modules_ok e1
    have hw' : setModules lower (Wse.init (some (.dict [(n, 1)])) false none (9 / 10) (.scalar 1) (.num 0))
      ⟨stateNames d.motor, low d.motor, high d.motor, gen.referenced⟩ = .ok w := by
      have hone : (d.weights.map fun w => (w.1, (w.2 : ℝ))) = [(n, 1)] := by simp [hweights]
      rw [← hone]
      exact hw
    refine single_reward hn hlower href hw' a5 ?_ a8
    rw [← (hwithin _ a7).1.length_eq, (low_spec _).1]

/-! ## Converters -/

/-- a continuous four-quadrant converter without dead time, with this sampling time -/
def FedAt (T : ℝ) (c : CConv ℝ) : Prop := ∃ f : CFour ℝ, c = .four f ∧ f.sub0.il = 0 ∧ f.sub1.il = 0 ∧ f.sub0.tau = T ∧ f.sub1.tau = T

theorem four_does {T : ℝ} {c : CConv ℝ} (h : FedAt T c) (t : ℝ) {x : ℝ} (hx : |x| ≤ 1) : ∃ c1, c.setAction [x] t = (c1, .ok [t + T]) ∧
    FedAt T c1 ∧ c.dim = 1 ∧ c1.dim = 1 ∧ ∀ i, (∃ w, c1.iSup [i] = .ok w) ∧ ∀ t', c1.convert [i] t' = .ok [x] := by
  obtain ⟨⟨tau, ⟨tau0, il0, a0⟩, ⟨tau1, il1, a1⟩⟩, rfl, h0, h1, h2, h3⟩ := h
  simp only at h0 h1 h2 h3
  rw [h0, h1, h2, h3]
  clear h0 h1 h2 h3
  obtain ⟨x1, x2⟩ := abs_le.1 hx
  refine ⟨((CConv.four ⟨tau, ⟨T, 0, a0⟩, ⟨T, 0, a1⟩⟩).setAction [x] t).1, ?_, ⟨_, rfl, rfl, rfl, rfl, rfl⟩, rfl, rfl,
    fun i => ⟨⟨_, rfl⟩, fun t' => ?_⟩⟩
  · simp [CConv.setAction, CFour.setAction, sortedSet]
  · have hclip : ∀ y : ℝ, 0 ≤ y → y ≤ 1 → clip y 0 1 = y := fun y h1 h2 => by
      unfold clip
      rw [max_eq_left h1, min_eq_left h2]
    show CFour.convert ⟨tau, ⟨T, 0, clip (1 / 2 * (x + 1)) 0 1⟩, ⟨T, 0, clip (-(1 / 2) * (x - 1)) 0 1⟩⟩ [i] t' = _
    have e1 := hclip (1 / 2 * (x + 1)) (by linarith) (by linarith)
    have e2 := hclip (-(1 / 2) * (x - 1)) (by linarith) (by linarith)
    rw [e1, e2]
    simp only [CFour.convert, CTwo.convert, CTwo.interlock, mul_zero, sub_zero]
    rw [e1, e2]
    simp only [Except.ok.injEq, List.cons.injEq, and_true]
    ring

/-- the default converter of shunt motors -/
theorem shunt_obeys (T : ℝ) : Obeys contPower (fun l => [l.getD 0 0 + l.getD 1 0]) 1 (FedAt T) := by
  intro c t a hc ha hx
  obtain ⟨x, rfl⟩ := List.length_eq_one_iff.1 ha
  obtain ⟨c1, h1, h2, -, -, h3⟩ := four_does hc t (hx x (by simp))
  refine ⟨c1, t + T, h1, h2, fun i j => ⟨(h3 _).1, fun t' => ?_⟩⟩
  show (c1, c1.convert _ t') = _
  rw [(h3 _).2]

/-- the default converter of externally excited motors -/
theorem extEx_obeys (T : ℝ) : Obeys contMulti id 2 (fun c => ∃ c1 c2, c = [c1, c2] ∧ FedAt T c1 ∧ FedAt T c2) := by
  rintro c t a ⟨c1, c2, rfl, hc1, hc2⟩ ha hx
  obtain ⟨x, y, rfl⟩ := List.length_eq_two.1 ha
  obtain ⟨d1, h1, h2, h3, h4, h5⟩ := four_does hc1 t (hx x (by simp))
  obtain ⟨d2, k1, k2, k3, k4, k5⟩ := four_does hc2 t (hx y (by simp))
  refine ⟨[d1, d2], t + T, ?_, ⟨d1, d2, rfl, h2, k2⟩, fun i j => ⟨?_, fun t' => ?_⟩⟩
  · show cMultiSetAction [c1, c2] [x, y] t = _
    simp [cMultiSetAction, cMultiSetActionAux, h3, k3, h1, k1, sortedSet]
  · obtain ⟨u, hu⟩ := (h5 i).1
    obtain ⟨v, hv⟩ := (k5 j).1
    exact ⟨u + v, by show cMultiISup [d1, d2] [i, j] = _; simp [cMultiISup, h4, k4, hu, hv]⟩
  · show ([d1, d2], cMultiConvert [d1, d2] [i, j] t') = _
    simp [cMultiConvert, h4, k4, (h5 i).2, (k5 j).2]

/-! ## The default motors -/

/-- `DcExternallyExcitedMotor` (dc_motor.py 65–72) -/
def extExDefault : DcParams ℝ := ⟨16 / 1000, 16 / 100, 19 / 1000000, 17 / 10000, 54 / 10000⟩

/-- `DcShuntMotor` (dc_shunt_motor.py 51–58) -/
def shuntDefault : DcParams ℝ := ⟨16 / 1000, 4 / 10, 19 / 1000000, 17 / 10000, 54 / 10000⟩

theorem extEx_names : stateNames .extExDc = ["omega", "torque", "i_a", "i_e", "u_a", "u_e", "u_sup"] := rfl

theorem shunt_names : stateNames .shuntDc = ["omega", "torque", "i_a", "i_e", "u", "u_sup"] := rfl

theorem extEx_low : low .extExDc = [-1, -1, -1, -1, -1, -1, 0] := by
  simp [low, dcLow, Space.extEx, Space.signed, fourLow]

/-- default limits and nominal speed -/
theorem two_values {t : MotorType} (ht : t = .extExDc ∨ t = .shuntDc) {ra re : ℝ} {torque : List ℝ → ℝ}
    {tl : Dict ℝ → Dict ℝ → Except Err ℝ} {motor : Dict ℝ × Dict ℝ}
    (h : motorValues t ra re torque tl [] [] = .ok motor) {limits nominal : List ℝ} (hv : SystemValues t motor ([], []) 60 limits nominal) :
    limits = ([400, 38, 210, 210] : List ℝ) ++ (if t = .extExDc then [60, 60] else [60]) ++ [60] ∧ entry nominal 0 = 300 := by
  have hdef : defLimits t = dcDefLimits ∧ defNominal t = dcDefNominal := by rcases ht with rfl | rfl <;> exact ⟨rfl, rfl⟩
  have key : ∀ k x, x ≠ 0 → lookup (dcDefLimits : Dict ℝ) k = some x → lookup motor.1 k = some x := fun k x hx e =>
    (motor_keeps h (by simp) hx).1 (by rw [hdef.1, lookup_nil]; simpa using e)
  have m1 := key "omega" 400 (by norm_num) (by simp [dcDefLimits, Limits.lookup_cons, lookup_nil])
  have m2 := key "torque" 38 (by norm_num) (by simp [dcDefLimits, Limits.lookup_cons, lookup_nil])
  have m3 := key "i_a" 210 (by norm_num) (by simp [dcDefLimits, Limits.lookup_cons, lookup_nil])
  have m4 := key "i_e" 210 (by norm_num) (by simp [dcDefLimits, Limits.lookup_cons, lookup_nil])
  have m5 := key "u" 60 (by norm_num) (by simp [dcDefLimits, Limits.lookup_cons, lookup_nil])
  have m6 := key "u_a" 60 (by norm_num) (by simp [dcDefLimits, Limits.lookup_cons, lookup_nil])
  have m7 := key "u_e" 60 (by norm_num) (by simp [dcDefLimits, Limits.lookup_cons, lookup_nil])
  have m8 : lookup motor.2 "omega" = some 300 := (motor_keeps h (by simp) (by norm_num)).2 (by
    rw [hdef.2, lookup_nil]; simp [dcDefNominal, Limits.lookup_cons, lookup_nil])
  constructor
  · have := hv.limits
    refine List.map_injective_iff.2 (Option.some_injective ℝ) ?_
    rw [this]
    rcases ht with rfl | rfl
    · simp [extEx_names, systemValue, m1, m2, m3, m4, m6, m7, lookup_nil, smaller]
    · simp [shunt_names, systemValue, m1, m2, m3, m4, m5, lookup_nil, smaller]
  · rcases ht with rfl | rfl
    · have := entry_of_map hv.nominal (k := "omega") (by simp [extEx_names])
      simpa [systemValue, m8, lookup_nil, smaller, extEx_names, List.idxOf_cons] using this.symm
    · have := entry_of_map hv.nominal (k := "omega") (by simp [shunt_names])
      simpa [systemValue, m8, lookup_nil, smaller, shunt_names, List.idxOf_cons] using this.symm

/-- no violation as long as both currents are within their limits -/
theorem two_allowed {names : List String} (hnames : names = "omega" :: "torque" :: "i_a" :: "i_e" :: names.drop 4) (hnd : names.Nodup)
    {lower : String → String} (hlower : ∀ n ∈ names, lower n = n) {w T i j : ℝ} {rest : List ℝ} (hi : |i| ≤ 1) (hj : |j| ≤ 1) :
    ¬ Violates lower "all_states" names ["i_a", "i_e"] [] (w :: T :: i :: j :: rest) := by
  rintro (⟨a, nm, x, q1, q2, q3, q, q4, q5⟩ | ⟨g, hg, -⟩)
  · have ha := List.getElem?_eq_some_iff.1 q1
    have m2 : names[2]? = some "i_a" := by rw [hnames]; rfl
    have m3 : names[3]? = some "i_e" := by rw [hnames]; rfl
    simp only [List.mem_cons, List.not_mem_nil, or_false] at q4
    rcases q4 with rfl | rfl
    · have q5 : nm = "i_a" := by
        rcases q5 with q5 | q5
        · exact absurd q5 (by decide)
        · rw [← q5]; exact hlower _ (by rw [hnames]; simp)
      subst q5
      have : a = 2 := (hnd.getElem_inj_iff (hi := ha.1) (hj := (List.getElem?_eq_some_iff.1 m2).1)).1
        (by rw [ha.2, (List.getElem?_eq_some_iff.1 m2).2])
      subst this
      simp only [List.getElem?_cons_succ, List.getElem?_cons_zero, Option.some.injEq] at q2
      subst q2
      linarith
    · have q5 : nm = "i_e" := by
        rcases q5 with q5 | q5
        · exact absurd q5 (by decide)
        · rw [← q5]; exact hlower _ (by rw [hnames]; simp)
      subst q5
      have : a = 3 := (hnd.getElem_inj_iff (hi := ha.1) (hj := (List.getElem?_eq_some_iff.1 m3).1)).1
        (by rw [ha.2, (List.getElem?_eq_some_iff.1 m3).2])
      subst this
      simp only [List.getElem?_cons_succ, List.getElem?_cons_zero, Option.some.injEq] at q2
      subst q2
      linarith
  · simp at hg

/-! ## Speed control of the externally excited motor -/

/-- The arguments of the environment for speed control with an externally excited motor and continuous actions. -/
def extExSpeed : Defaults where
  motor := .extExDc
  action := .continuous
  converter := .multi [.four, .four]
  load := .polynomial [("a", 0), ("b", 0), ("c", 0), ("j_load", 1 / 10000)]
  supply := 60
  tau := 1 / 10000
  limited := ["i_a", "i_e"]
  squares := []
  references := .one ⟨"omega", (1 / 1000, 1 / 10), none⟩
  weights := [("omega", 1)]

/-- The arguments of the environment for torque control. -/
def extExTorque : Defaults where
  motor := .extExDc
  action := .continuous
  converter := .multi [.four, .four]
  load := .constantSpeed 100
  supply := 60
  tau := 1 / 10000
  limited := ["i_a", "i_e"]
  squares := []
  references := .one ⟨"torque", (1 / 1000, 1 / 10), none⟩
  weights := [("torque", 1)]

/-- The arguments of the environment for torque control with a shunt motor and continuous actions. -/
def shuntTorque : Defaults where
  motor := .shuntDc
  action := .continuous
  converter := .single .four
  load := .constantSpeed 230
  supply := 60
  tau := 1 / 10000
  limited := ["i_a", "i_e"]
  squares := []
  references := .one ⟨"torque", (1 / 1000, 1 / 10), some (0, 4 / 5)⟩
  weights := [("torque", 1)]
  currentSums := [["i_a", "i_e"]]

theorem c123_two : make (Registry.Motor.envId ⟨.extExDc, .speed, .continuous⟩)
      = some ("ContSpeedControlDcExternallyExcitedMotorEnv", extExSpeed) ∧
    make (Registry.Motor.envId ⟨.extExDc, .torque, .continuous⟩) = some ("ContTorqueControlDcExternallyExcitedMotorEnv", extExTorque) ∧
    make (Registry.Motor.envId ⟨.shuntDc, .torque, .continuous⟩) = some ("ContTorqueControlDcShuntMotorEnv", shuntTorque) := by
  decide +kernel

/-- states of the physical system in which the solver is at the time of the system and the converter obeys -/
def InStep (p : Parts ℝ (DcY ℝ) (List ℝ) (List ℝ) S C P) (fed : C → Prop) (region : ℝ → ℝ → ℝ → Prop) (st : St ℝ S C P) : Prop :=
  fed st.conv ∧ p.solverT st.solver = st.t ∧ ∃ w i j, p.solverY st.solver = ⟨[w], [i, j]⟩ ∧ region w i j

theorem in_step_reset {k : ℕ} {p : Parts ℝ (DcY ℝ) (List ℝ) (List ℝ) S C P} {pw : Power (List ℝ) C} (hu : Uses p pw) {mp : DcParams ℝ}
    {el : (Fin 2 → ℝ) → (Fin k → ℝ) → ℝ → Fin 2 → ℝ} {mech : ℝ → (Fin 1 → ℝ) → ℝ → Fin 1 → ℝ} (ht : TracksTwo p mp el mech)
    {fed : C → Prop} {region : ℝ → ℝ → ℝ → Prop} {rep : DcY ℝ → List ℝ → List ℝ → Except Err (List ℝ)} {limits : List ℝ} {st : St ℝ S C P}
    {w i j : ℝ} (hc : fed (pw.reset st.conv).1) (hr : region w i j) : InStep p fed region (reset p rep limits st ⟨[w], [i, j]⟩).1 := by
  refine ⟨?_, (ht.initial _ _ _).2, w, i, j, (ht.initial _ _ _).1, hr⟩
  show fed (p.convReset st.conv).1
  rw [hu.2.2.2]
  exact hc

/-- actions in the action space -/
def Duty (n : ℕ) (a : List ℝ) : Prop := a.length = n ∧ ∀ x ∈ a, |x| ≤ 1

theorem duty_ofFn {n : ℕ} {a : Fin n → ℝ} (h : ∀ i, |a i| ≤ 1) : Duty n (List.ofFn a) := by
  refine ⟨List.length_ofFn, fun x hx => ?_⟩
  rw [List.mem_ofFn] at hx
  obtain ⟨i, rfl⟩ := hx
  exact h i

theorem exp_lt {x : ℝ} (hx : 0 < x) : 0 < Real.exp (-x) ∧ Real.exp (-x) < 1 :=
  ⟨Real.exp_pos _, by rw [Real.exp_lt_one_iff]; linarith⟩

theorem fed_new (tau : ℝ) : FedAt (1 / 10000) ((newC .four).setTau tau) := ⟨_, rfl, rfl, rfl, rfl, rfl⟩

theorem fed_reset {T : ℝ} {c : CConv ℝ} (h : FedAt T c) : FedAt T c.reset.1 := by
  obtain ⟨f, rfl, h0, h1, h2, h3⟩ := h
  exact ⟨_, rfl, h0, h1, h2, h3⟩

/-- the multi converter of externally excited motors -/
def FedBoth (c : List (CConv ℝ)) : Prop := ∃ c1 c2, c = [c1, c2] ∧ FedAt (1 / 10000) c1 ∧ FedAt (1 / 10000) c2

theorem fed_both (tau : ℝ) : FedBoth (cMultiReset (cMultiSetTau ([Bridge.four, .four].map newC) tau)).1 :=
  ⟨_, _, rfl, fed_reset (fed_new tau), fed_reset (fed_new tau)⟩

theorem extEx_in_space {r : StepResult (List ℝ) (List ℝ) ℝ} (h : StateInSpace .extExDc r) : entry r.obs.1 0 ≤ 1 ∧ entry r.obs.1 1 ≤ 1 := by
  have := h.2
  have hhigh : high .extExDc = [1, 1, 1, 1, 1, 1, 1] := rfl
  rw [hhigh] at this
  match hr : r.obs.1, this with
  | _ :: _ :: _, .cons h1 (.cons h2 _) => exact ⟨by simpa [entry] using h1, by simpa [entry] using h2⟩

theorem shunt_in_space {r : StepResult (List ℝ) (List ℝ) ℝ} (h : StateInSpace .shuntDc r) : entry r.obs.1 0 ≤ 1 ∧ entry r.obs.1 1 ≤ 1 := by
  have := h.2
  have hhigh : high .shuntDc = [1, 1, 1, 1, 1, 1] := rfl
  rw [hhigh] at this
  match hr : r.obs.1, this with
  | _ :: _ :: _, .cons h1 (.cons h2 _) => exact ⟨by simpa [entry] using h1, by simpa [entry] using h2⟩

/-- C123 is violated by speed control of an externally excited motor: its limits do not bound the speed.  With the default parameters and a
little excitation the unloaded motor exceeds 2.8 times the limit of its speed, with currents within their limits, so the episode goes on
with a state outside `state_space` and a reward below `reward_range`. -/
theorem c123_extEx_speed_violated {R : Rng H} (hR : RngOk R)
    {p : Parts ℝ (DcY ℝ) (List ℝ) (List ℝ) S (List (CConv ℝ)) P} (hu : Uses p contMulti) (hs : Shaped p (DcShape 1 2)) (hi : Ideal p 60)
    (ht : TracksTwo p extExDefault (dcOde extExDefault) (loadMech (25 / 10000) extExSpeed.load)) (tq : List ℝ → ℝ)
    {ra re : ℝ} {torque : List ℝ → ℝ} {tl : Dict ℝ → Dict ℝ → Except Err ℝ} {motor : Dict ℝ × Dict ℝ}
    (h : motorValues .extExDc ra re torque tl [] [] = .ok motor)
    {limits nominal : List ℝ} (hv : SystemValues .extExDc motor ([], []) 60 limits nominal)
    (start : G → G × DcY ℝ) (hstart : ∀ g, (start g).2 = ⟨[0], [0, 0]⟩) (seedSystem : ℕ → G → G)
    {gen : RefGen τ ℝ} {new : τ → Prop} {reseeded : τ → τ → Prop}
    (hg : Generates R .extExDc limits nominal extExSpeed.references τ gen new reseeded)
    (seedRef : ℕ → τ → τ) (hseed : ∀ n s, reseeded s (seedRef n s)) (lower : String → String)
    (hlower : ∀ n ∈ stateNames .extExDc, lower n = n) (nCb : ℕ) (x : World S (List (CConv ℝ)) P G τ) {tau : ℝ}
    (hx : x.sys.conv = cMultiSetTau ([Bridge.four, .four].map newC) tau) (hf : new x.ref) :
    ∃ mods, build (Registry.setup extExSpeed p (dcFrame id tq [0, 1] 2 1) (dcResetReport tq [0, 1]) limits start seedSystem gen seedRef lower
        nCb) = .ok mods ∧
      ∀ seed, ∃ actions : List (List ℝ), (∀ a ∈ actions, Duty 2 a) ∧ ∃ a r,
        ((.step a : Core.Op (World S (List (CConv ℝ)) P G τ) (List ℝ)), Core.Out.step (.done r))
          ∈ (Core.run mods (Core.Env.init mods x) (.reset seed :: actions.map .step)).2 ∧
        r.terminated = false ∧ 2.8 < entry r.obs.1 0 ∧ ¬ StateInSpace .extExDc r ∧ ¬ RewardInRange r := by
  obtain ⟨hlim, hnom⟩ := two_values (Or.inl rfl) h hv
  have hN := (c117_default h _).2 _ _ hv
  rw [if_pos rfl] at hlim
  simp only [List.cons_append, List.nil_append] at hlim
  subst hlim
  have hmem : "omega" ∈ stateNames .extExDc := by simp [extEx_names]
  have hidx : (stateNames .extExDc).idxOf "omega" = 0 := by simp [extEx_names]
  obtain ⟨refHigh, fresh, ready, g1, g2, g3, g4, g5⟩ := nominal_references hR (n := "omega") (fun k hk => by
    rw [List.mem_singleton] at hk
    subst hk
    exact hN _ hmem) hg
  rw [hidx, hnom] at g5
  have g5 : entry refHigh 0 = 3 / 4 := by rw [g5]; norm_num [entry]
  have htau : ((extExSpeed.tau : ℚ) : ℝ) = 1 / 10000 := by norm_num [extExSpeed]
  have hmech : loadMech (25 / 10000) extExSpeed.load = polyMech 0 0 0 (1 / 10000) (1 / 1000) [25 / 10000] := by
    have := mech_unloaded (25 / 10000) (1 / 10000)
    norm_num at this
    norm_num [extExSpeed, this]
  rw [hmech] at ht
  have hpoly : PolyParams (0 : ℝ) 0 0 (1 / 10000) (1 / 1000) [25 / 10000] := by constructor <;> norm_num
  -- decay of the currents
  obtain ⟨qa, hqa⟩ : ∃ q, q = Real.exp (-(extExDefault.ra / extExDefault.la) * (1 / 10000)) := ⟨_, rfl⟩
  obtain ⟨qe, hqe⟩ : ∃ q, q = Real.exp (-(extExDefault.re / extExDefault.le) * (1 / 10000)) := ⟨_, rfl⟩
  have ha01 : 0 < qa ∧ qa < 1 := by
    rw [hqa, neg_mul]
    exact exp_lt (by norm_num [extExDefault])
  have he01 : 0 < qe ∧ qe < 1 := by
    rw [hqe, neg_mul]
    exact exp_lt (by norm_num [extExDefault])
  obtain ⟨gr, hgr⟩ : ∃ g : ℝ, g = 17 / 10000 * (50 * (1 - qa)) * (1 - qe) / (26 / 10000) * (1 / 10000) := ⟨_, rfl⟩
  have hgr0 : 0 < gr := by
    rw [hgr]
    have h1 := sub_pos.2 ha01.2
    have h2 := sub_pos.2 he01.2
    positivity
  obtain ⟨N, hNN⟩ := exists_nat_gt ((1150 + gr) / gr)
  rw [div_lt_iff₀ hgr0] at hNN
  have main := registered_steered (N := N) hR ⟨.extExDc, .speed, .continuous⟩ c123_two.1 (n := "omega") hmem rfl (.extExDc tq)
    (Powered.contMulti (tau := tau) [.four, .four]) p hu hs _ nominal rfl (fun k hk => hN k (by
      simp only [extExSpeed, RefArg.list, List.map_cons, List.map_nil, List.mem_singleton] at hk
      subst hk
      exact hmem)) start (fun g => by
      show DcShape 1 2 (start g).2
      rw [hstart]; exact ⟨rfl, rfl⟩) seedSystem hg g1 g2 g3 g4 seedRef hseed lower hlower nCb x hx hf
    (fun k => InStep p FedBoth fun w i j => 0 ≤ w ∧ w ≤ 1150 ∧ 0 ≤ i ∧ i ≤ 200 ∧ 0 ≤ j ∧ j ≤ 1 ∧
      (1 ≤ k → 50 * (1 - qa) ≤ i ∧ 1 - qe ≤ j) ∧ gr * k ≤ w + gr)
    (fun st g hst => by
      rw [hstart]
      refine in_step_reset hu ht (by rw [hst]; exact fed_both tau) ?_
      refine ⟨le_rfl, by norm_num, le_rfl, by norm_num, le_rfl, by norm_num, fun h => absurd h (by norm_num), ?_⟩
      simp [hgr0.le])
    (fun s => 23 / 8 < entry s 0) (box := Duty 2) (fun a ha => ha.1) ⟨[0, 0], rfl⟩
    (fun k st hst => by
      obtain ⟨f1, f2, w, i, j, f3, w0, w1, i0, i1, j0, j1, f4, f5⟩ := hst
      have hact : ∀ n, |(![4 / 75, 1 / 375] : Fin 2 → ℝ) n| ≤ 1 := by
        intro n
        fin_cases n <;> norm_num [abs_le]
      obtain ⟨z, z1, z2, st', e1, e2, e3, e4⟩ := two_step hu hi ht (extEx_obeys (1 / 10000)) tq
        [400, 38, 210, 210, 60, 60, 60] (tau := 1 / 10000) (by norm_num) f1 f3 f2 ![4 / 75, 1 / 375] hact
      have hel : ∀ (s : Fin 2 → ℝ) w', dcOde extExDefault s (fun n => (![4 / 75, 1 / 375] : Fin 2 → ℝ) n * 60) w'
          = dcOde extExDefault s ![16 / 5, 4 / 25] w' := by
        intro s w'
        congr 1
        funext n
        fin_cases n <;> norm_num
      obtain ⟨r1, r2, r3, r4, r5, r6, r7⟩ := running_up_step (mp := extExDefault) (low := 50) (W := 1151)
        (J := 26 / 10000) (tau := 1 / 10000)
        (by norm_num [extExDefault]) (by norm_num [extExDefault]) (by norm_num [extExDefault]) (by norm_num [extExDefault])
        (by norm_num [extExDefault]) hpoly (by norm_num) hel z1 z2 (by norm_num) w0 i0
        (i1.trans (by norm_num [extExDefault])) j0 (j1.trans (by norm_num [extExDefault])) (by norm_num) (by norm_num)
        (by
          have q1 : i ^ 2 ≤ 200 ^ 2 := pow_le_pow_left₀ i0 i1 2
          have q2 : w ^ 2 ≤ 1150 ^ 2 := pow_le_pow_left₀ w0 w1 2
          norm_num [extExDefault] at q1 q2 ⊢
          linarith) (by norm_num [extExDefault])
      rw [← hqa] at r5
      rw [← hqe] at r2
      have n1 : (4 / 25 : ℝ) / extExDefault.re = 1 := by norm_num [extExDefault]
      have n2 : (16 / 5 : ℝ) / extExDefault.ra = 200 := by norm_num [extExDefault]
      rw [n1] at r2 r3
      rw [n2] at r6
      have hi' : 50 * (1 - qa) ≤ z (1 / 10000) 1 := by
        have := mul_nonneg i0 ha01.1.le
        linarith
      have hj' : 1 - qe ≤ z (1 / 10000) 2 := by
        rw [r2]
        have := mul_nonneg j0 he01.1.le
        linarith
      have hi0' : 0 ≤ z (1 / 10000) 1 := by linarith [ha01.2]
      have hj0' : 0 ≤ z (1 / 10000) 2 := j0.trans r4
      refine ⟨_, st', _, duty_ofFn hact, by
        show simulate p (dcFrame id tq [0, 1] 2 1) _ _ _ _ = _
        rw [htau, e1]
        simp only [divLimits, List.ofFn_succ, List.ofFn_zero]
        rw [if_pos (by rfl)], ?_, ?_⟩
      · exact two_allowed rfl (stateNames_nodup _) hlower (abs_le.2 ⟨by linarith, by linarith⟩) (abs_le.2 ⟨by linarith, by linarith⟩)
      · by_cases hw : z (1 / 10000) 0 ≤ 1150
        · right
          refine ⟨e2, e4, _, _, _, e3, w0.trans r1, hw, hi0', r6, hj0', r3, fun _ => ⟨hi', hj'⟩, ?_⟩
          push_cast
          rcases Nat.eq_zero_or_pos k with rfl | hk
          · have := w0.trans r1
            simp only [Nat.cast_zero, zero_add, mul_one]
            linarith
          · obtain ⟨p1, p2⟩ := f4 hk
            have : w + gr ≤ z (1 / 10000) 0 := by
              refine le_trans ?_ r7
              rw [hgr]
              have q1 : 50 * (1 - qa) ≤ min i 50 := le_min p1 (by linarith [ha01.1])
              have q2 : (50 * (1 - qa)) * (1 - qe) ≤ min i 50 * j :=
                mul_le_mul q1 p2 (by linarith [he01.2]) (le_min i0 (by norm_num))
              have : extExDefault.lePrime = 17 / 10000 := rfl
              rw [this]
              nlinarith
            linarith
        · left
          show 23 / 8 < z (1 / 10000) 0 / 400
          linarith [not_le.1 hw])
    (fun st hst => by
      obtain ⟨-, -, w, i, j, -, -, w1, -, -, -, -, -, f5⟩ := hst
      linarith)
  obtain ⟨mods, m1, m2⟩ := main
  refine ⟨mods, m1, fun seed => ?_⟩
  obtain ⟨actions, a1, a, r, a2, a3, a4, ref, a5, a6⟩ := m2 seed
  refine ⟨actions, a1, a, r, a2, a3, by norm_num; linarith, fun hin => ?_, fun hrew => ?_⟩
  · linarith [(extEx_in_space hin).1]
  · have hidx' : (stateNames extExSpeed.motor).idxOf "omega" = 0 := hidx
    have hlow' : entry (low extExSpeed.motor) 0 = -1 := by
      show entry (low .extExDc) 0 = -1
      rw [extEx_low]; rfl
    rw [hidx', hlow'] at a6
    have hle : entry ref 0 ≤ 3 / 4 := by
      rw [← g5]
      match ref, refHigh, a5.2 with
      | [], [], .nil => exact le_rfl
      | _ :: _, _ :: _, .cons h _ => simpa [entry] using h
    have h1 := hrew.1
    rw [a6] at h1
    have := le_abs_self (entry r.obs.1 0 - entry ref 0)
    linarith

/-! ## Torque control -/

/-- C123 is violated by torque control of an externally excited motor: the torque exceeds its limit by half, with currents within their
limits. -/
theorem c123_extEx_torque_violated {R : Rng H} (hR : RngOk R)
    {p : Parts ℝ (DcY ℝ) (List ℝ) (List ℝ) S (List (CConv ℝ)) P} (hu : Uses p contMulti) (hs : Shaped p (DcShape 1 2)) (hi : Ideal p 60)
    (ht : TracksTwo p extExDefault (dcOde extExDefault) (loadMech (25 / 10000) extExTorque.load))
    {tq : List ℝ → ℝ} (htq : ∀ i j, tq [i, j] = dcTorque extExDefault ![i, j])
    {ra re : ℝ} {torque : List ℝ → ℝ} {tl : Dict ℝ → Dict ℝ → Except Err ℝ} {motor : Dict ℝ × Dict ℝ}
    (h : motorValues .extExDc ra re torque tl [] [] = .ok motor)
    {limits nominal : List ℝ} (hv : SystemValues .extExDc motor ([], []) 60 limits nominal)
    (start : G → G × DcY ℝ) (hstart : ∀ g, (start g).2 = ⟨[100], [0, 0]⟩) (seedSystem : ℕ → G → G)
    {gen : RefGen τ ℝ} {new : τ → Prop} {reseeded : τ → τ → Prop}
    (hg : Generates R .extExDc limits nominal extExTorque.references τ gen new reseeded)
    (seedRef : ℕ → τ → τ) (hseed : ∀ n s, reseeded s (seedRef n s)) (lower : String → String)
    (hlower : ∀ n ∈ stateNames .extExDc, lower n = n) (nCb : ℕ) (x : World S (List (CConv ℝ)) P G τ) {tau : ℝ}
    (hx : x.sys.conv = cMultiSetTau ([Bridge.four, .four].map newC) tau) (hf : new x.ref) :
    ∃ mods, build (Registry.setup extExTorque p (dcFrame id tq [0, 1] 2 1) (dcResetReport tq [0, 1]) limits start seedSystem gen seedRef lower
        nCb) = .ok mods ∧
      ∀ seed, ∃ actions : List (List ℝ), (∀ a ∈ actions, Duty 2 a) ∧ ∃ a r,
        ((.step a : Core.Op (World S (List (CConv ℝ)) P G τ) (List ℝ)), Core.Out.step (.done r))
          ∈ (Core.run mods (Core.Env.init mods x) (.reset seed :: actions.map .step)).2 ∧
        r.terminated = false ∧ 1.5 < entry r.obs.1 1 ∧ ¬ StateInSpace .extExDc r := by
  obtain ⟨hlim, -⟩ := two_values (Or.inl rfl) h hv
  have hN := (c117_default h _).2 _ _ hv
  rw [if_pos rfl] at hlim
  simp only [List.cons_append, List.nil_append] at hlim
  subst hlim
  have hmem : "torque" ∈ stateNames .extExDc := by simp [extEx_names]
  obtain ⟨refHigh, fresh, ready, g1, g2, g3, g4, -⟩ := nominal_references hR (n := "torque") (fun k hk => by
    rw [List.mem_singleton] at hk
    subst hk
    exact hN _ hmem) hg
  have htau : ((extExTorque.tau : ℚ) : ℝ) = 1 / 10000 := by norm_num [extExTorque]
  have ht2 : ∀ i j, tq [i, j] = 17 / 10000 * i * j := fun i j => by rw [htq]; rfl
  -- decay of the currents
  obtain ⟨qa, hqa⟩ : ∃ q, q = Real.exp (-(extExDefault.ra / extExDefault.la) * (1 / 10000)) := ⟨_, rfl⟩
  obtain ⟨qe, hqe⟩ : ∃ q, q = Real.exp (-(extExDefault.re / extExDefault.le) * (1 / 10000)) := ⟨_, rfl⟩
  have ha01 : 0 < qa ∧ qa < 1 := by
    rw [hqa, neg_mul]
    exact exp_lt (by norm_num [extExDefault])
  have he01 : 0 < qe ∧ qe < 1 := by
    rw [hqe, neg_mul]
    exact exp_lt (by norm_num [extExDefault])
  obtain ⟨N, hNN⟩ := exists_pow_lt_of_lt_one (show (0 : ℝ) < 1 / 20 by norm_num) (max_lt ha01.2 he01.2)
  have hNa : qa ^ N ≤ 1 / 20 := (pow_le_pow_left₀ ha01.1.le (le_max_left _ _) N).trans hNN.le
  have hNe : qe ^ N ≤ 1 / 20 := (pow_le_pow_left₀ he01.1.le (le_max_right _ _) N).trans hNN.le
  have main := registered_steered (N := N) hR ⟨.extExDc, .torque, .continuous⟩ c123_two.2.1 (n := "torque") hmem rfl (.extExDc tq)
    (Powered.contMulti (tau := tau) [.four, .four]) p hu hs _ nominal rfl (fun k hk => hN k (by
      simp only [extExTorque, RefArg.list, List.map_cons, List.map_nil, List.mem_singleton] at hk
      subst hk
      exact hmem)) start (fun g => by
      show DcShape 1 2 (start g).2
      rw [hstart]; exact ⟨rfl, rfl⟩) seedSystem hg g1 g2 g3 g4 seedRef hseed lower hlower nCb x hx hf
    (fun k => InStep p FedBoth fun w i j => w = 100 ∧ 0 ≤ i ∧ i ≤ 205 ∧ 198 - 198 * qa ^ k ≤ i ∧ j = 200 - 200 * qe ^ k ∧
      17 / 10000 * i * j ≤ 57)
    (fun st g hst => by
      rw [hstart]
      refine in_step_reset hu ht (by rw [hst]; exact fed_both tau) ?_
      exact ⟨rfl, le_rfl, by norm_num, by norm_num, by norm_num, by norm_num⟩)
    (fun s => 1.5 < entry s 1) (box := Duty 2) (fun a ha => ha.1) ⟨[0, 0], rfl⟩
    (fun k st hst => by
      obtain ⟨f1, f2, w, i, j, f3, w0, i0, i1, i2, j2, -⟩ := hst
      subst w0
      have hek : 0 < qe ^ k ∧ qe ^ k ≤ 1 := ⟨pow_pos he01.1 k, pow_le_one₀ he01.1.le he01.2.le⟩
      have j0 : 0 ≤ j := by rw [j2]; linarith [hek.2]
      have j1 : j ≤ 200 := by rw [j2]; linarith [hek.1]
      have hact : ∀ n, |(![(82 / 25 + 17 / 100 * j) / 60, 32 / 60] : Fin 2 → ℝ) n| ≤ 1 := by
        intro n
        fin_cases n
        · show |(82 / 25 + 17 / 100 * j) / 60| ≤ 1
          rw [abs_le]
          constructor <;> linarith
        · norm_num [abs_le]
      obtain ⟨z, z1, z2, st', e1, e2, e3, e4⟩ := two_step hu hi ht (extEx_obeys (1 / 10000)) tq
        [400, 38, 210, 210, 60, 60, 60] (tau := 1 / 10000) (by norm_num) f1 f3 f2 _ hact
      have hel : ∀ (s : Fin 2 → ℝ) w', dcOde extExDefault s (fun n => (![(82 / 25 + 17 / 100 * j) / 60, 32 / 60] : Fin 2 → ℝ) n * 60) w'
          = dcOde extExDefault s ![extExDefault.ra * 205 + extExDefault.lePrime * 100 * j, 32] w' := by
        intro s w'
        congr 1
        funext n
        fin_cases n
        · show (82 / 25 + 17 / 100 * j) / 60 * 60 = 16 / 1000 * 205 + 17 / 10000 * 100 * j
          ring
        · norm_num
      have n1 : (32 : ℝ) / extExDefault.re = 200 := by norm_num [extExDefault]
      obtain ⟨r1, r2, r3, r4, r5⟩ := armature_step (mp := extExDefault) (top := 205) (low := 198) (rise := 3 / 5) (tau := 1 / 10000)
        (by norm_num [extExDefault]) (by norm_num [extExDefault]) (by norm_num [extExDefault])
        (by norm_num [extExDefault]) (by norm_num) hel z1 z2 (by norm_num) (by rw [n1]; exact j1)
        (by rw [n1]; norm_num [extExDefault]; linarith) (by norm_num [extExDefault])
      rw [← hqa] at r4 r5
      rw [← hqe, n1] at r2
      have hjk : z (1 / 10000) 2 = 200 - 200 * qe ^ (k + 1) := by
        rw [r2, j2, pow_succ]
        ring
      have hek' : 0 < qe ^ (k + 1) ∧ qe ^ (k + 1) ≤ 1 := ⟨pow_pos he01.1 _, pow_le_one₀ he01.1.le he01.2.le⟩
      have hik : 198 - 198 * qa ^ (k + 1) ≤ z (1 / 10000) 1 := by
        refine le_trans (le_of_eq_of_le ?_ (add_le_add_right (mul_le_mul_of_nonneg_right (sub_le_sub_right i2 198) ha01.1.le) 198)) r4
        rw [pow_succ]
        ring
      have hak' : qa ^ (k + 1) ≤ 1 := pow_le_one₀ ha01.1.le ha01.2.le
      have hi0' : 0 ≤ z (1 / 10000) 1 := by linarith
      have hi1' : z (1 / 10000) 1 ≤ 205 := by
        refine r5.trans ?_
        have := mul_nonneg (sub_nonneg.2 i1) ha01.1.le
        linarith
      refine ⟨_, st', _, duty_ofFn hact, by
        show simulate p (dcFrame id tq [0, 1] 2 1) _ _ _ _ = _
        rw [htau, e1]
        simp only [divLimits, List.ofFn_succ, List.ofFn_zero]
        rw [if_pos (by rfl)], ?_, ?_⟩
      · exact two_allowed rfl (stateNames_nodup _) hlower (abs_le.2 ⟨by linarith, by linarith⟩)
          (abs_le.2 ⟨by linarith [hek'.2], by linarith [hek'.1]⟩)
      · by_cases hw : 17 / 10000 * z (1 / 10000) 1 * z (1 / 10000) 2 ≤ 57
        · right
          exact ⟨e2, e4, _, _, _, e3, r1, hi0', hi1', hik, hjk, hw⟩
        · left
          show 1.5 < tq [z (1 / 10000) 1, z (1 / 10000) 2] / 38
          rw [ht2]
          norm_num
          linarith [not_le.1 hw])
    (fun st hst => by
      obtain ⟨-, -, w, i, j, -, -, -, -, i2, j2, f5⟩ := hst
      have q1 : (188 : ℝ) ≤ i := by linarith
      have q2 : (190 : ℝ) ≤ j := by linarith
      nlinarith [mul_le_mul q1 q2 (by norm_num) (by linarith)])
  obtain ⟨mods, m1, m2⟩ := main
  refine ⟨mods, m1, fun seed => ?_⟩
  obtain ⟨actions, a1, a, r, a2, a3, a4, -⟩ := m2 seed
  refine ⟨actions, a1, a, r, a2, a3, a4, fun hin => ?_⟩
  have := (extEx_in_space hin).2
  norm_num at a4
  linarith

/-- C123 is violated by torque control of a shunt motor: the torque exceeds its limit by a fifth and the sum of the currents the limit of the
currents by half of it, with each current within its limit. -/
theorem c123_shunt_torque_violated {R : Rng H} (hR : RngOk R)
    {p : Parts ℝ (DcY ℝ) (List ℝ) (List ℝ) S (CConv ℝ) P} (hu : Uses p contPower) (hs : Shaped p (DcShape 1 2)) (hi : Ideal p 60)
    (ht : TracksTwo p shuntDefault (shuntOde shuntDefault) (loadMech (25 / 10000) shuntTorque.load))
    {tq : List ℝ → ℝ} (htq : ∀ i j, tq [i, j] = dcTorque shuntDefault ![i, j])
    {ra re : ℝ} {torque : List ℝ → ℝ} {tl : Dict ℝ → Dict ℝ → Except Err ℝ} {motor : Dict ℝ × Dict ℝ}
    (h : motorValues .shuntDc ra re torque tl [] [] = .ok motor)
    {limits nominal : List ℝ} (hv : SystemValues .shuntDc motor ([], []) 60 limits nominal)
    (start : G → G × DcY ℝ) (hstart : ∀ g, (start g).2 = ⟨[230], [0, 0]⟩) (seedSystem : ℕ → G → G)
    {gen : RefGen τ ℝ} {new : τ → Prop} {reseeded : τ → τ → Prop}
    (hg : Generates R .shuntDc limits nominal shuntTorque.references τ gen new reseeded)
    (seedRef : ℕ → τ → τ) (hseed : ∀ n s, reseeded s (seedRef n s)) (lower : String → String)
    (hlower : ∀ n ∈ stateNames .shuntDc, lower n = n) (nCb : ℕ) (x : World S (CConv ℝ) P G τ) {tau : ℝ}
    (hx : x.sys.conv = (newC .four).setTau tau) (hf : new x.ref) :
    ∃ mods, build (Registry.setup shuntTorque p (dcFrame (fun l => [l.getD 0 0 + l.getD 1 0]) tq [0, 1] 1 1) (dcResetReport tq [0, 1]) limits
        start seedSystem gen seedRef lower nCb) = .ok mods ∧
      ∀ seed, ∃ actions : List (List ℝ), (∀ a ∈ actions, Duty 1 a) ∧ ∃ a r,
        ((.step a : Core.Op (World S (CConv ℝ) P G τ) (List ℝ)), Core.Out.step (.done r))
          ∈ (Core.run mods (Core.Env.init mods x) (.reset seed :: actions.map .step)).2 ∧
        r.terminated = false ∧ 1.2 < entry r.obs.1 1 ∧ 1.5 < entry r.obs.1 2 + entry r.obs.1 3 ∧ ¬ StateInSpace .shuntDc r := by
  obtain ⟨hlim, -⟩ := two_values (Or.inr rfl) h hv
  have hN := (c117_default h _).2 _ _ hv
  rw [if_neg (by simp)] at hlim
  simp only [List.cons_append, List.nil_append] at hlim
  subst hlim
  have hmem : "torque" ∈ stateNames .shuntDc := by simp [shunt_names]
  have hN' : NominalOk shuntTorque.motor [400, 38, 210, 210, 60, 60] nominal (shuntTorque.references.list.map (·.state)) := fun k hk => hN k (by
      simp only [shuntTorque, RefArg.list, List.map_cons, List.map_nil, List.mem_singleton] at hk
      subst hk
      exact hmem)
  obtain ⟨-, fresh, ready, g1, g2, g3⟩ := generates_provides hR hg hN' (by norm_num [shuntTorque, RefArg.list, MarginOk])
  have htau : ((shuntTorque.tau : ℚ) : ℝ) = 1 / 10000 := by norm_num [shuntTorque]
  have ht2 : ∀ i j, tq [i, j] = 17 / 10000 * i * j := fun i j => by rw [htq]; rfl
  -- decay of the currents
  obtain ⟨qa, hqa⟩ : ∃ q, q = Real.exp (-(shuntDefault.ra / shuntDefault.la) * (1 / 10000)) := ⟨_, rfl⟩
  obtain ⟨qe, hqe⟩ : ∃ q, q = Real.exp (-(shuntDefault.re / shuntDefault.le) * (1 / 10000)) := ⟨_, rfl⟩
  have ha01 : 0 < qa ∧ qa < 1 := by
    rw [hqa, neg_mul]
    exact exp_lt (by norm_num [shuntDefault])
  have he01 : 0 < qe ∧ qe < 1 := by
    rw [hqe, neg_mul]
    exact exp_lt (by norm_num [shuntDefault])
  have ha2 : qa ≤ 12 / 13 := by
    have e : -(shuntDefault.ra / shuntDefault.la) * (1 / 10000) = -(8 / 95) := by norm_num [shuntDefault]
    rw [hqa, e, Real.exp_neg]
    have := Real.add_one_le_exp (8 / 95 : ℝ)
    rw [inv_le_comm₀ (Real.exp_pos _) (by norm_num)]
    linarith
  obtain ⟨gr, hgr⟩ : ∃ g : ℝ, g = 4 * (1 - qe) := ⟨_, rfl⟩
  have hgr0 : 0 < gr := by rw [hgr]; linarith [he01.2]
  obtain ⟨N, hNN⟩ := exists_nat_gt (140 / gr)
  rw [div_lt_iff₀ hgr0] at hNN
  have main := registered_steered (N := N) hR ⟨.shuntDc, .torque, .continuous⟩ c123_two.2.2 (n := "torque") hmem rfl (.shuntDc tq)
    (Powered.continuous (tau := tau) .four) p hu hs _ nominal rfl hN' start (fun g => by
      show DcShape 1 2 (start g).2
      rw [hstart]; exact ⟨rfl, rfl⟩) seedSystem hg g1 g2 g3 (List.forall₂_same.2 fun _ _ => le_rfl) seedRef hseed lower hlower nCb x hx hf
    (fun k => InStep p (FedAt (1 / 10000)) fun w i j => w = 230 ∧ 0 ≤ i ∧ i ≤ 200 ∧ 198 - 198 * qa ^ k ≤ i ∧ gr * k ≤ j ∧ j ≤ 140 ∧
      j ≤ 3 / 50 * k)
    (fun st g hst => by
      rw [hstart]
      refine in_step_reset hu ht (by rw [hst]; exact fed_reset (fed_new tau)) ?_
      exact ⟨rfl, le_rfl, by norm_num, by norm_num, by norm_num, by norm_num, by norm_num⟩)
    (fun s => 1.2 < entry s 1 ∧ 1.5 < entry s 2 + entry s 3) (box := Duty 1) (fun a ha => ha.1) ⟨[0], rfl⟩
    (fun k st hst => by
      obtain ⟨f1, f2, w, i, j, f3, w0, i0, i1, i2, j2, j1, j3⟩ := hst
      subst w0
      have j0 : 0 ≤ j := le_trans (by positivity) j2
      have hact : ∀ n, |(![(16 / 5 + 391 / 1000 * j) / 60] : Fin 1 → ℝ) n| ≤ 1 := by
        intro n
        fin_cases n
        show |(16 / 5 + 391 / 1000 * j) / 60| ≤ 1
        rw [abs_le]
        constructor <;> linarith
      obtain ⟨z, z1, z2, st', e1, e2, e3, e4⟩ := two_step hu hi ht (shunt_obeys (1 / 10000)) tq
        [400, 38, 210, 210, 60, 60] (tau := 1 / 10000) (by norm_num) f1 f3 f2 _ hact
      obtain ⟨y, hy⟩ : ∃ y, y = 16 / 5 + 391 / 1000 * j := ⟨_, rfl⟩
      have hel : ∀ (s : Fin 2 → ℝ) w', shuntOde shuntDefault s (fun n => (![(16 / 5 + 391 / 1000 * j) / 60] : Fin 1 → ℝ) n * 60) w'
          = dcOde shuntDefault s ![shuntDefault.ra * 200 + shuntDefault.lePrime * 230 * j, y] w' := by
        intro s w'
        have h1 : (16 / 5 + 391 / 1000 * j) / 60 * 60 = 16 / 1000 * 200 + 17 / 10000 * 230 * j := by ring
        have h2 : (16 / 5 + 391 / 1000 * j) / 60 * 60 = y := by rw [hy]; ring
        show dcOde shuntDefault s ![(16 / 5 + 391 / 1000 * j) / 60 * 60, (16 / 5 + 391 / 1000 * j) / 60 * 60] w' = _
        congr 1
        funext n
        fin_cases n
        · exact h1
        · exact h2
      have n1 : y / shuntDefault.re = 8 + 391 / 400 * j := by rw [hy]; norm_num [shuntDefault]; ring
      obtain ⟨r1, r2, r3, r4, r5⟩ := armature_step (mp := shuntDefault) (top := 200) (low := 198) (rise := 3 / 50) (tau := 1 / 10000)
        (by norm_num [shuntDefault]) (by norm_num [shuntDefault]) (by norm_num [shuntDefault])
        (by norm_num [shuntDefault]) (by norm_num) hel z1 z2 (by norm_num) (by rw [n1]; linarith)
        (by rw [n1]; norm_num [shuntDefault]; linarith) (by norm_num [shuntDefault])
      rw [← hqa] at r4 r5
      rw [← hqe, n1] at r2
      have hjk : gr * ((k + 1 : ℕ) : ℝ) ≤ z (1 / 10000) 2 := by
        rw [r2]
        push_cast
        have h1 : 4 * (1 - qe) ≤ (8 + 391 / 400 * j - j) * (1 - qe) :=
          mul_le_mul_of_nonneg_right (by linarith) (by linarith [he01.2])
        nlinarith
      have hj0' : 0 ≤ z (1 / 10000) 2 := le_trans (by positivity) hjk
      have hj3 : z (1 / 10000) 2 ≤ 3 / 50 * ((k + 1 : ℕ) : ℝ) := by
        push_cast
        linarith
      have hik : 198 - 198 * qa ^ (k + 1) ≤ z (1 / 10000) 1 := by
        refine le_trans (le_of_eq_of_le ?_ (add_le_add_right (mul_le_mul_of_nonneg_right (sub_le_sub_right i2 198) ha01.1.le) 198)) r4
        rw [pow_succ]
        ring
      have hak' : qa ^ (k + 1) ≤ 1 := pow_le_one₀ ha01.1.le ha01.2.le
      have hi0' : 0 ≤ z (1 / 10000) 1 := by linarith
      have hi1' : z (1 / 10000) 1 ≤ 200 := by
        refine r5.trans ?_
        have := mul_nonneg (sub_nonneg.2 i1) ha01.1.le
        linarith
      refine ⟨_, st', _, duty_ofFn hact, by
        show simulate p (dcFrame (fun l => [l.getD 0 0 + l.getD 1 0]) tq [0, 1] 1 1) _ _ _ _ = _
        rw [htau, e1]
        simp only [divLimits, List.ofFn_succ, List.ofFn_zero]
        rw [if_pos (by rfl)], ?_, ?_⟩
      · exact two_allowed rfl (stateNames_nodup _) hlower (abs_le.2 ⟨by linarith, by linarith⟩)
          (abs_le.2 ⟨by linarith, by linarith⟩)
      · by_cases hw : z (1 / 10000) 2 ≤ 140
        · right
          exact ⟨e2, e4, _, _, _, e3, r1, hi0', hi1', hik, hjk, hw, hj3⟩
        · left
          have hw := not_le.1 hw
          have hk : 60 ≤ k + 1 := by
            have : (60 : ℝ) ≤ ((k + 1 : ℕ) : ℝ) := by linarith
            exact_mod_cast this
          have hq : qa ^ (k + 1) ≤ 1 / 100 := by
            refine (pow_le_pow_of_le_one ha01.1.le ha01.2.le hk).trans ((pow_le_pow_left₀ ha01.1.le ha2 60).trans ?_)
            norm_num
          have hi2 : 196 ≤ z (1 / 10000) 1 := by linarith
          constructor
          · show 1.2 < tq [z (1 / 10000) 1, z (1 / 10000) 2] / 38
            rw [ht2]
            norm_num
            nlinarith [mul_le_mul hi2 hw.le (by norm_num) hi0']
          · show 1.5 < z (1 / 10000) 1 / 210 + z (1 / 10000) 2 / 210
            norm_num
            linarith)
    (fun st hst => by
      obtain ⟨-, -, w, i, j, -, -, -, -, -, j2, j1, -⟩ := hst
      linarith)
  obtain ⟨mods, m1, m2⟩ := main
  refine ⟨mods, m1, fun seed => ?_⟩
  obtain ⟨actions, a1, a, r, a2, a3, a4, -⟩ := m2 seed
  refine ⟨actions, a1, a, r, a2, a3, a4.1, a4.2, fun hin => ?_⟩
  have := (shunt_in_space hin).2
  have a4 := a4.1
  norm_num at a4
  linarith

/-! ## Cases -/

/-- A solver that moves along given motions. -/
def movingTwo {k : ℕ} {A C : Type} (pw : Power A C) (U₀ : ℝ) (motion : (Fin k → ℝ) → ℝ → ℝ → ℝ → ℝ → Fin 3 → ℝ) :
    Parts ℝ (DcY ℝ) (List ℝ) A (DcY ℝ × ℝ) C Unit :=
  { (restingParts pw : Parts ℝ (DcY ℝ) (List ℝ) A (DcY ℝ × ℝ) C Unit) with
    integrate := fun s u t => match s.1 with
      | ⟨[w], [i, j]⟩ => (⟨[motion (fun n => u.getD n 0) w i j (max 0 (t - s.2)) 0],
          [motion (fun n => u.getD n 0) w i j (max 0 (t - s.2)) 1, motion (fun n => u.getD n 0) w i j (max 0 (t - s.2)) 2]⟩, t)
      | y => (y, t)
    getVoltage := fun s _ _ => (s, [U₀])
    supplyReset := fun s => (s, [U₀]) }

theorem movingTwo_shaped {k : ℕ} {A C : Type} (pw : Power A C) (U₀ : ℝ) (motion : (Fin k → ℝ) → ℝ → ℝ → ℝ → ℝ → Fin 3 → ℝ) :
    Shaped (movingTwo pw U₀ motion) (DcShape 1 2) ∧ Uses (movingTwo pw U₀ motion) pw ∧ Ideal (movingTwo pw U₀ motion) U₀ := by
  refine ⟨⟨fun _ _ _ => rfl, fun _ => rfl, fun s u t h => ?_, fun _ _ _ h => h⟩, ⟨rfl, rfl, rfl, rfl⟩, ⟨fun _ _ _ => rfl, fun _ => rfl⟩⟩
  show DcShape 1 2 ((movingTwo pw U₀ motion).integrate s u t).1
  simp only [movingTwo]
  split
  · exact ⟨rfl, rfl⟩
  · exact h

theorem movingTwo_tracks {k : ℕ} {A C : Type} (pw : Power A C) (U₀ : ℝ) {mp : DcParams ℝ} {el : (Fin 2 → ℝ) → (Fin k → ℝ) → ℝ → Fin 2 → ℝ}
    (h : OneMotion (dcTorque mp) el) (load : AnyLoad) (hl : load.Ok) :
    ∃ motion : (Fin k → ℝ) → ℝ → ℝ → ℝ → ℝ → Fin 3 → ℝ, TracksTwo (movingTwo pw U₀ motion) mp el load.mech := by
  have key : ∀ (v : Fin k → ℝ) (w i j : ℝ), ∃ z : ℝ → Fin 3 → ℝ, z 0 = ![w, i, j] ∧
      Runs (systemEquation load.mech (dcTorque mp) el 0 none) (fun _ => v) z := by
    intro v w i j
    obtain ⟨z, h0, hz, -⟩ := h load hl 1 one_pos (fun _ => v) ![w, i, j]
    exact ⟨z, h0, hz⟩
  choose motion hm using key
  refine ⟨motion, fun _ _ _ => ⟨rfl, rfl⟩, fun s u t => ?_, fun s v t w i j hy hT => ⟨motion v w i j, (hm v w i j).2, (hm v w i j).1, ?_⟩⟩
  · show ((movingTwo pw U₀ motion).integrate s u t).2 = t
    simp only [movingTwo]
    split <;> rfl
  · have hy : s.1 = ⟨[w], [i, j]⟩ := hy
    have hT : s.2 ≤ t := hT
    have hv : (fun n : Fin k => (List.ofFn v).getD n 0) = v := by
      funext n
      simp [List.getD_eq_getElem?_getD]
    show ((movingTwo pw U₀ motion).integrate s (List.ofFn v) t).1 = _
    simp only [movingTwo, hy, hv, max_eq_right (sub_nonneg.2 hT)]
    rfl

theorem two_motions : OneMotion (dcTorque extExDefault) (dcOde extExDefault) ∧ OneMotion (dcTorque shuntDefault) (shuntOde shuntDefault) :=
  ⟨(c106_dc extExDefault permExDefault (by norm_num [extExDefault]) (by norm_num [extExDefault]) (by norm_num [extExDefault])
      (by norm_num [extExDefault]) (by norm_num [permExDefault]) (by norm_num [permExDefault])).1,
    (c106_dc shuntDefault permExDefault (by norm_num [shuntDefault]) (by norm_num [shuntDefault]) (by norm_num [shuntDefault])
      (by norm_num [shuntDefault]) (by norm_num [permExDefault]) (by norm_num [permExDefault])).2.1⟩

/-- `c123_extEx_speed_violated` applies: motions of the default drive, default limits and a default generator exist. -/
example : ∃ (τ : Type) (mods : Core.Comps (World (DcY ℝ × ℝ) (List (CConv ℝ)) Unit Unit τ) (List ℝ) (List ℝ) (List ℝ) (List ℝ) ℝ)
    (x : World (DcY ℝ × ℝ) (List (CConv ℝ)) Unit Unit τ), ∀ seed, ∃ actions : List (List ℝ), (∀ a ∈ actions, Duty 2 a) ∧ ∃ a r,
      ((.step a : Core.Op (World (DcY ℝ × ℝ) (List (CConv ℝ)) Unit Unit τ) (List ℝ)), Core.Out.step (.done r))
        ∈ (Core.run mods (Core.Env.init mods x) (.reset seed :: actions.map .step)).2 ∧
      r.terminated = false ∧ 2.8 < entry r.obs.1 0 ∧ ¬ StateInSpace .extExDc r ∧ ¬ RewardInRange r := by
  obtain ⟨motor, hmotor⟩ := default_made .extExDc 1 1 (fun _ => 0) (tl := fun _ _ => .ok 1) fun _ _ => ⟨1, rfl⟩
  obtain ⟨⟨limits, nominal, hv⟩, -⟩ := c117_default hmotor 60
  obtain ⟨τ, gen, new, reseeded, hg, ⟨s, hs⟩, hr⟩ := c115_generators demoRng (fun n => n) ⟨.extExDc, .speed, .continuous⟩ c123_two.1 limits
    nominal 0
  obtain ⟨motion, hmo⟩ := movingTwo_tracks contMulti 60 two_motions.1 (.poly 0 0 0 (1 / 10000) (1 / 1000) [25 / 10000])
    (by constructor <;> norm_num)
  obtain ⟨p1, p2, p3⟩ := movingTwo_shaped contMulti 60 motion
  have hmech : AnyLoad.mech (.poly 0 0 0 (1 / 10000) (1 / 1000) [25 / 10000]) = loadMech (25 / 10000) extExSpeed.load := by
    have := mech_unloaded (25 / 10000) (1 / 10000)
    norm_num at this
    norm_num [extExSpeed, this, AnyLoad.mech]
  rw [hmech] at hmo
  obtain ⟨mods, -, h2⟩ := c123_extEx_speed_violated demoRng_ok p2 p1 p3 hmo (fun _ => 0) hmotor hv (fun g : Unit => (g, ⟨[0], [0, 0]⟩))
    (fun _ => rfl) (fun _ g => g) hg (fun _ s => s) (fun n s => hr s) id (fun _ _ => rfl) 0
    ⟨⟨0, 0, (⟨[0], [0, 0]⟩, 0), cMultiSetTau ([Bridge.four, .four].map newC) 1, ()⟩, (), s⟩ rfl hs
  exact ⟨τ, mods, _, h2⟩

/-- `c123_extEx_torque_violated` applies. -/
example : ∃ (τ : Type) (mods : Core.Comps (World (DcY ℝ × ℝ) (List (CConv ℝ)) Unit Unit τ) (List ℝ) (List ℝ) (List ℝ) (List ℝ) ℝ)
    (x : World (DcY ℝ × ℝ) (List (CConv ℝ)) Unit Unit τ), ∀ seed, ∃ actions : List (List ℝ), (∀ a ∈ actions, Duty 2 a) ∧ ∃ a r,
      ((.step a : Core.Op (World (DcY ℝ × ℝ) (List (CConv ℝ)) Unit Unit τ) (List ℝ)), Core.Out.step (.done r))
        ∈ (Core.run mods (Core.Env.init mods x) (.reset seed :: actions.map .step)).2 ∧
      r.terminated = false ∧ 1.5 < entry r.obs.1 1 ∧ ¬ StateInSpace .extExDc r := by
  obtain ⟨motor, hmotor⟩ := default_made .extExDc 1 1 (fun _ => 0) (tl := fun _ _ => .ok 1) fun _ _ => ⟨1, rfl⟩
  obtain ⟨⟨limits, nominal, hv⟩, -⟩ := c117_default hmotor 60
  obtain ⟨τ, gen, new, reseeded, hg, ⟨s, hs⟩, hr⟩ := c115_generators demoRng (fun n => n) ⟨.extExDc, .torque, .continuous⟩ c123_two.2.1 limits
    nominal 0
  obtain ⟨motion, hmo⟩ := movingTwo_tracks contMulti 60 two_motions.1 .const trivial
  obtain ⟨p1, p2, p3⟩ := movingTwo_shaped contMulti 60 motion
  obtain ⟨mods, -, h2⟩ := c123_extEx_torque_violated demoRng_ok p2 p1 p3 hmo (tq := fun l => dcTorque extExDefault ![l.getD 0 0, l.getD 1 0])
    (fun _ _ => rfl) hmotor hv (fun g : Unit => (g, ⟨[100], [0, 0]⟩))
    (fun _ => rfl) (fun _ g => g) hg (fun _ s => s) (fun n s => hr s) id (fun _ _ => rfl) 0
    ⟨⟨0, 0, (⟨[0], [0, 0]⟩, 0), cMultiSetTau ([Bridge.four, .four].map newC) 1, ()⟩, (), s⟩ rfl hs
  exact ⟨τ, mods, _, h2⟩

/-- `c123_shunt_torque_violated` applies. -/
example : ∃ (τ : Type) (mods : Core.Comps (World (DcY ℝ × ℝ) (CConv ℝ) Unit Unit τ) (List ℝ) (List ℝ) (List ℝ) (List ℝ) ℝ)
    (x : World (DcY ℝ × ℝ) (CConv ℝ) Unit Unit τ), ∀ seed, ∃ actions : List (List ℝ), (∀ a ∈ actions, Duty 1 a) ∧ ∃ a r,
      ((.step a : Core.Op (World (DcY ℝ × ℝ) (CConv ℝ) Unit Unit τ) (List ℝ)), Core.Out.step (.done r))
        ∈ (Core.run mods (Core.Env.init mods x) (.reset seed :: actions.map .step)).2 ∧
      r.terminated = false ∧ 1.2 < entry r.obs.1 1 ∧ 1.5 < entry r.obs.1 2 + entry r.obs.1 3 ∧ ¬ StateInSpace .shuntDc r := by
  obtain ⟨motor, hmotor⟩ := default_made .shuntDc 1 1 (fun _ => 0) (tl := fun _ _ => .ok 1) fun _ _ => ⟨1, rfl⟩
  obtain ⟨⟨limits, nominal, hv⟩, -⟩ := c117_default hmotor 60
  obtain ⟨τ, gen, new, reseeded, hg, ⟨s, hs⟩, hr⟩ := c115_generators demoRng (fun n => n) ⟨.shuntDc, .torque, .continuous⟩ c123_two.2.2 limits
    nominal 0
  obtain ⟨motion, hmo⟩ := movingTwo_tracks contPower 60 two_motions.2 .const trivial
  obtain ⟨p1, p2, p3⟩ := movingTwo_shaped contPower 60 motion
  obtain ⟨mods, -, h2⟩ := c123_shunt_torque_violated demoRng_ok p2 p1 p3 hmo (tq := fun l => dcTorque shuntDefault ![l.getD 0 0, l.getD 1 0])
    (fun _ _ => rfl) hmotor hv (fun g : Unit => (g, ⟨[230], [0, 0]⟩))
    (fun _ => rfl) (fun _ g => g) hg (fun _ s => s) (fun n s => hr s) id (fun _ _ => rfl) 0
    ⟨⟨0, 0, (⟨[0], [0, 0]⟩, 0), (newC .four).setTau 1, ()⟩, (), s⟩ rfl hs
  exact ⟨τ, mods, _, h2⟩

end

end GEM.Props
