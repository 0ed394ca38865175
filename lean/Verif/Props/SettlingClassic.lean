import Verif.Model.Classic
import Verif.Props.Settling

/-!
# C129: current control settles, for the classic controllers of the examples
-/

set_option linter.unusedSectionVars false

namespace GEM.Props

noncomputable section

open Filter Topology GEM GEM.Core GEM.Sys GEM.Conv GEM.Motor GEM.Closed

variable {S P : Type}

/-- The loops of the examples give the observation to the controller as it is (classic_controllers_dc_motor_example.py 61–68). -/
def classicLoop (c : Classic.ContAction ℝ) : Controller (Classic.Cont ℝ × Classic.Cont ℝ) (List ℝ × List ℝ) (List ℝ) where
  reset := c.reset
  control st o := c.control st (Reward.entry o.1) (Reward.entry o.2)

/-- A controller of one current, at index 2, with a PI stage tuned by `automated_gain` (classic_controllers.py 345–347, 380–385). -/
structure ClassicCurrent (c : Classic.ContAction ℝ) (x : Classic.Cont ℝ) (L tau a lo hi U nI : ℝ) : Prop where
  state : c.refState = 2 ∧ c.refIdx = 0 ∧ c.iIdx = 2 ∧ c.omegaIdx = 0
  one : c.exc = none
  lo : c.lo = lo
  hi : c.hi = hi
  gains : x.p = L / (tau * a) / U * nI ∧ x.i = L / (tau * a) / U * nI / (tau * a ^ 2) ∧ x.d = none ∧ x.tau = tau

/-- As `CurrentSettles`, with a classic controller whose stages are `x`. -/
def ClassicSettles (p : Parts ℝ (DcY ℝ) (List ℝ) (List ℝ) S (CConv ℝ) P) (tq : List ℝ → ℝ) (tau nW nT nI U w r i : ℝ)
    (c : Classic.ContAction ℝ) (x : Classic.Cont ℝ × Classic.Cont ℝ) (st : St ℝ S (CConv ℝ) P) : Prop :=
  ∃ o : ℕ → List ℝ, (∀ k, ((turn p (dcFrame id tq [0] 1 1) tau [nW, nT, nI, U, U] (classicLoop c) [r / nI])^[k]
    (((c.reset x, (Sys.reset p (dcResetReport tq [0]) [nW, nT, nI, U, U] st ⟨[w], [i]⟩).1),
      (Sys.reset p (dcResetReport tq [0]) [nW, nT, nI, U, U] st ⟨[w], [i]⟩).2))).2 = .ok (o k)) ∧ SettlesAt o 2 (r / nI)

/-- System, controller and observation after some turns: current `i`, integrator `I`, both in physical units. -/
structure AtClassic (p : Parts ℝ (DcY ℝ) (List ℝ) (List ℝ) S (CConv ℝ) P) (ok : S → Prop) (c : Classic.ContAction ℝ) (L tau a lo hi low U w nW nI : ℝ)
    (x : ((Classic.Cont ℝ × Classic.Cont ℝ) × St ℝ S (CConv ℝ) P) × Except Err (List ℝ)) (i I : ℝ) : Prop where
  tuned : ClassicCurrent c x.1.1.1 L tau a lo hi U nI
  integ : x.1.1.1.integrated = I / nI
  conv : Feeds x.1.2.conv low
  okay : ok x.1.2.solver
  state : p.solverY x.1.2.solver = ⟨[w], [i]⟩
  time : p.solverT x.1.2.solver = x.1.2.t
  obs : ∃ t u v, x.2 = .ok [w / nW, t, i / nI, u, v]

/-- the voltage that the controller asks for: error, integrator with the new error, feed-forward `f0 + f1 * i` -/
def classicAsked (L tau a f0 f1 r : ℝ) (s : ℝ × ℝ) : ℝ :=
  L / (tau * a) * (r - s.1) + L / (tau * a) / (tau * a ^ 2) * (s.2 + tau * (r - s.1)) + (f0 + f1 * s.1)

theorem classic_turn {p : Parts ℝ (DcY ℝ) (List ℝ) (List ℝ) S (CConv ℝ) P} {R l psi L tau a α w U lo hi low nW nT nI r f0 f1 : ℝ}
    {c : Classic.ContAction ℝ} (hu : Uses p contPower) (hi' : Ideal p U) {ok : S → Prop} (hp : Winding p ok R l psi tau α w) (tq : List ℝ → ℝ)
    (hU : 0 < U) (hnI : nI ≠ 0) (hlim : low ≤ lo ∧ lo ≤ hi ∧ hi ≤ 1)
    (hF : ∀ s : ℕ → ℝ, s 0 = w / nW → c.feedforward s = .ok ((f0 + f1 * (s 2 * nI)) / U))
    {x : ((Classic.Cont ℝ × Classic.Cont ℝ) × St ℝ S (CConv ℝ) P) × Except Err (List ℝ)} {i I : ℝ}
    (h : AtClassic p ok c L tau a lo hi low U w nW nI x i I) :
    AtClassic p ok c L tau a lo hi low U w nW nI (turn p (dcFrame id tq [0] 1 1) tau [nW, nT, nI, U, U] (classicLoop c) [r / nI] x)
      (pushed (R + l * w) (psi * w) α tau (lo * U) (hi * U) r (classicAsked L tau a f0 f1 r) (i, I)).1
      (pushed (R + l * w) (psi * w) α tau (lo * U) (hi * U) r (classicAsked L tau a f0 f1 r) (i, I)).2 := by
  obtain ⟨⟨⟨xa, xe⟩, st⟩, o⟩ := x
  obtain ⟨h1, h2, h3, h3', h4, h5, t, u, v, h6⟩ := h
  simp only at h1 h2 h3 h3' h4 h5 h6
  subst h6
  obtain ⟨⟨c1, c2, c3, c4⟩, c5, c6, c7, g1, g2, g3, g4⟩ := h1
  set V := classicAsked L tau a f0 f1 r (i, I) with hV
  have hf := hF (Reward.entry [w / nW, t, i / nI, u, v]) rfl
  have hf' : (f0 + f1 * (Reward.entry [w / nW, t, i / nI, u, v] 2 * nI)) / U = (f0 + f1 * i) / U := by
    show (f0 + f1 * (i / nI * nI)) / U = _
    rw [div_mul_cancel₀ _ hnI]
  rw [hf'] at hf
  have hctl : xa.control (Reward.entry [w / nW, t, i / nI, u, v] c.refState) (Reward.entry [r / nI] c.refIdx)
      = (xa, V / U - (f0 + f1 * i) / U) := by
    rw [c1, c2]
    simp only [Classic.Cont.control, g3]
    refine Prod.ext rfl ?_
    show xa.p * (r / nI - i / nI) + xa.i * (xa.integrated + (r / nI - i / nI) * xa.tau) = _
    rw [g1, g2, g4, h2, hV]
    simp only [classicAsked]
    field_simp
    ring
  have hans : (classicLoop c).control (xa, xe) ([w / nW, t, i / nI, u, v], [r / nI])
      = (((Classic.guarded lo hi (V / U) xa (i / nI) (r / nI)).1, xe), .ok [(Classic.guarded lo hi (V / U) xa (i / nI) (r / nI)).2]) := by
    show c.control (xa, xe) _ _ = _
    simp only [Classic.ContAction.control, hctl, hf, c5, c6, c7, sub_add_cancel]
    rw [c1, c2]
    rfl
  have hcut : clip (Classic.guarded lo hi (V / U) xa (i / nI) (r / nI)).2 low 1 * U = clip V (lo * U) (hi * U) := by
    have e1 : (Classic.guarded lo hi (V / U) xa (i / nI) (r / nI)).2 = clip (V / U) lo hi := by
      unfold Classic.guarded
      split
      · rename_i h
        rw [clip, max_eq_left h.1, min_eq_left h.2]
      · rfl
    have m := clip_bounds2 (V / U) lo hi hlim.2.1
    rw [e1, show clip (clip (V / U) lo hi) low 1 = clip (V / U) lo hi by
      rw [clip, max_eq_left (hlim.1.trans m.1), min_eq_left (m.2.trans hlim.2.2)]]
    unfold clip
    rw [min_mul_of_nonneg _ _ hU.le, max_mul_of_nonneg _ _ hU.le, div_mul_cancel₀ _ hU.ne']
  obtain ⟨st', k1, k2, k2', k3, k4⟩ := winding_step hu hi' hp tq [nW, nT, nI, U, U] h3 h3' h4 h5
    (Classic.guarded lo hi (V / U) xa (i / nI) (r / nI)).2
  rw [hcut] at k1 k3
  have hturn : turn p (dcFrame id tq [0] 1 1) tau [nW, nT, nI, U, U] (classicLoop c) [r / nI] (((xa, xe), st), .ok [w / nW, t, i / nI, u, v])
      = ((((Classic.guarded lo hi (V / U) xa (i / nI) (r / nI)).1, xe), st'),
        divLimits [w, tq [(pushed (R + l * w) (psi * w) α tau (lo * U) (hi * U) r (classicAsked L tau a f0 f1 r) (i, I)).1],
          (pushed (R + l * w) (psi * w) α tau (lo * U) (hi * U) r (classicAsked L tau a f0 f1 r) (i, I)).1,
          clip V (lo * U) (hi * U), U] [nW, nT, nI, U, U]) := by
    simp only [turn, hans, k1]
    rfl
  rw [hturn]
  have hint : (Classic.guarded lo hi (V / U) xa (i / nI) (r / nI)).1.integrated
      = (pushed (R + l * w) (psi * w) α tau (lo * U) (hi * U) r (classicAsked L tau a f0 f1 r) (i, I)).2 / nI ∧
      (Classic.guarded lo hi (V / U) xa (i / nI) (r / nI)).1.p = xa.p ∧ (Classic.guarded lo hi (V / U) xa (i / nI) (r / nI)).1.i = xa.i ∧
      (Classic.guarded lo hi (V / U) xa (i / nI) (r / nI)).1.d = xa.d ∧
      (Classic.guarded lo hi (V / U) xa (i / nI) (r / nI)).1.tau = xa.tau := by
    have hiff : (lo ≤ V / U ∧ V / U ≤ hi) ↔ (lo * U ≤ V ∧ V ≤ hi * U) := by rw [le_div_iff₀ hU, div_le_iff₀ hU]
    unfold Classic.guarded
    by_cases hin : lo ≤ V / U ∧ V / U ≤ hi
    · rw [if_pos hin]
      refine ⟨?_, rfl, rfl, rfl, rfl⟩
      have hin' := hiff.1 hin
      have e : clip V (lo * U) (hi * U) = V := by rw [clip, max_eq_left hin'.1, min_eq_left hin'.2]
      show xa.integrated + (r / nI - i / nI) * xa.tau = _
      simp only [pushed, ← hV, e, sub_self, if_true]
      rw [h2, g4]
      ring
    · rw [if_neg hin]
      refine ⟨?_, rfl, rfl, rfl, rfl⟩
      have e : V - clip V (lo * U) (hi * U) ≠ 0 := by
        intro h0
        have m := clip_bounds2 V (lo * U) (hi * U) (mul_le_mul_of_nonneg_right hlim.2.1 hU.le)
        have h1 : V = clip V (lo * U) (hi * U) := by linarith
        rw [← h1] at m
        exact hin (hiff.2 m)
      simp only [pushed, ← hV, if_neg e]
      rw [h2]
      ring
  exact ⟨⟨⟨c1, c2, c3, c4⟩, c5, c6, c7, hint.2.1.trans g1, hint.2.2.1.trans g2, hint.2.2.2.1.trans g3, hint.2.2.2.2.trans g4⟩, hint.1, k2, k2',
    k3, k4, _, _, _, rfl⟩

theorem classic_started {p : Parts ℝ (DcY ℝ) (List ℝ) (List ℝ) S (CConv ℝ) P} {R l psi L tau a α w U lo hi low nW nT nI : ℝ}
    {c : Classic.ContAction ℝ} {x : Classic.Cont ℝ × Classic.Cont ℝ} (hc : ClassicCurrent c x.1 L tau a lo hi U nI)
    (hu : Uses p contPower) (hi' : Ideal p U) {ok : S → Prop} (hp : Winding p ok R l psi tau α w) (tq : List ℝ → ℝ)
    {st : St ℝ S (CConv ℝ) P} (hst : Feeds st.conv low) (hok : ok st.solver) (i : ℝ) :
    AtClassic p ok c L tau a lo hi low U w nW nI ((c.reset x, (Sys.reset p (dcResetReport tq [0]) [nW, nT, nI, U, U] st ⟨[w], [i]⟩).1),
      (Sys.reset p (dcResetReport tq [0]) [nW, nT, nI, U, U] st ⟨[w], [i]⟩).2) i 0 := by
  have h := started_at (nW := nW) (nT := nT) (nI := nI) hu hi' hp tq (newCurrent_tuned L tau a low U none) hst hok i
  obtain ⟨c0, c5, c6, c7, g1, g2, g3, g4⟩ := hc
  have e : (c.reset x).1.p = x.1.p ∧ (c.reset x).1.i = x.1.i ∧ (c.reset x).1.d = x.1.d ∧ (c.reset x).1.tau = x.1.tau ∧
      (c.reset x).1.integrated = 0 := by
    simp [Classic.ContAction.reset, Classic.Cont.reset, g3]
  exact ⟨⟨c0, c5, c6, c7, e.1.trans g1, e.2.1.trans g2, e.2.2.1.trans g3, e.2.2.2.1.trans g4⟩, by rw [zero_div]; exact e.2.2.2.2, h.conv, h.okay,
    h.state, h.time, h.obs⟩

/-- C129 (classic controllers, general) -/
theorem c129_classic {p : Parts ℝ (DcY ℝ) (List ℝ) (List ℝ) S (CConv ℝ) P} {R l psi L tau a α w U lo hi low nW nT nI r f0 f1 : ℝ}
    {c : Classic.ContAction ℝ} {x : Classic.Cont ℝ × Classic.Cont ℝ} (hc : ClassicCurrent c x.1 L tau a lo hi U nI)
    (hu : Uses p contPower) (hi' : Ideal p U) {ok : S → Prop} (hp : Winding p ok R l psi tau α w) (tq : List ℝ → ℝ)
    (hU : 0 < U) (hnI : nI ≠ 0) (hlim : low ≤ lo ∧ lo ≤ hi ∧ hi ≤ 1) (hL : 0 < L) (hτ : 0 < tau) (ha : 0 < a) (hR : 0 < R + l * w)
    (hα : 0 < α) (hα' : α < 1) (hF : ∀ s : ℕ → ℝ, s 0 = w / nW → c.feedforward s = .ok ((f0 + f1 * (s 2 * nI)) / U))
    (hP : f1 ≤ L / (tau * a)) (hslow : (1 - α) / (R + l * w) * (L / (tau * a) + L / (tau * a) / a ^ 2 - f1) ≤ α)
    (hdamp : 4 * ((1 - α) / (R + l * w) * (L / (tau * a) / a ^ 2))
      ≤ (1 - α + (1 - α) / (R + l * w) * (L / (tau * a) + L / (tau * a) / a ^ 2 - f1)) ^ 2)
    (hreach : lo * U < (R + l * w) * r + psi * w ∧ (R + l * w) * r + psi * w < hi * U)
    (hff : lo * U ≤ f0 + f1 * r ∧ f0 + f1 * r ≤ hi * U) {st : St ℝ S (CConv ℝ) P} (hst : Feeds st.conv low) (hok : ok st.solver) (i : ℝ) :
    ClassicSettles p tq tau nW nT nI U w r i c x st := by
  have hp0 : 0 < L / (tau * a) := by positivity
  have hκ : L / (tau * a) / (tau * a ^ 2) * tau = L / (tau * a) / a ^ 2 := by field_simp
  have all : ∀ k, AtClassic p ok c L tau a lo hi low U w nW nI ((turn p (dcFrame id tq [0] 1 1) tau [nW, nT, nI, U, U] (classicLoop c) [r / nI])^[k]
      ((c.reset x, (Sys.reset p (dcResetReport tq [0]) [nW, nT, nI, U, U] st ⟨[w], [i]⟩).1),
        (Sys.reset p (dcResetReport tq [0]) [nW, nT, nI, U, U] st ⟨[w], [i]⟩).2))
      ((pushed (R + l * w) (psi * w) α tau (lo * U) (hi * U) r (classicAsked L tau a f0 f1 r))^[k] (i, 0)).1
      ((pushed (R + l * w) (psi * w) α tau (lo * U) (hi * U) r (classicAsked L tau a f0 f1 r))^[k] (i, 0)).2 := by
    intro k
    induction k with
    | zero => exact classic_started hc hu hi' hp tq hst hok i
    | succ k ih =>
      rw [Function.iterate_succ_apply', Function.iterate_succ_apply']
      exact classic_turn hu hi' hp tq hU hnI hlim hF ih
  choose t u v hobs using fun k => (all k).obs
  refine ⟨_, hobs, pushed_settles (g := L / (tau * a) + L / (tau * a) / a ^ 2 - f1) (ki := L / (tau * a) / (tau * a ^ 2)) (f := f0 + f1 * r) hR
    (fun s => ?_) hnI hα hα' (by positivity) (by rw [hκ]; linarith) hslow (by rw [hκ]; exact hdamp) hreach hff (fun k => rfl)⟩
  simp only [classicAsked]
  rw [← hκ]
  ring

/-- what `feedforward` adds to the voltage of a permanently excited motor -/
def permExFf (c : Classic.ContAction ℝ) (w nW U : ℝ) : ℝ := w / nW * c.nomOmega * c.psi / c.nomU * U

/-- the slope of the EMF that `feedforward` assumes for a series motor -/
def seriesFf (c : Classic.ContAction ℝ) (l w nW nI U : ℝ) : ℝ := w / nW * c.nomOmega * (l / nI * c.nomI) / c.nomU * U

/-- C129 (classic controllers of permanently excited motors, exact solutions) -/
theorem c129_classic_permEx {p : Parts ℝ (DcY ℝ) (List ℝ) (List ℝ) S (CConv ℝ) P} {mp : PermExParams ℝ} {tau a w U lo hi low nW nT nI r : ℝ}
    {c : Classic.ContAction ℝ} {x : Classic.Cont ℝ × Classic.Cont ℝ} (hc : ClassicCurrent c x.1 mp.la tau a lo hi U nI)
    (hu : Uses p contPower) (hi' : Ideal p U) (hp : TracksWinding p (permExTorque mp) (permExOde mp)) (tq : List ℝ → ℝ)
    (hU : 0 < U) (hnI : nI ≠ 0) (hlim : low ≤ lo ∧ lo ≤ hi ∧ hi ≤ 1) (hL : 0 < mp.la) (hR : 0 < mp.ra) (hτ : 0 < tau) (ha : 4 ≤ a)
    (hstep : (1 + 1 / a ^ 2) * (Real.exp (mp.ra * tau / mp.la) - 1) ≤ a * (mp.ra * tau / mp.la)) (hpsi : c.psi ≠ 0)
    (hreach : lo * U < mp.ra * r + mp.psiE * w ∧ mp.ra * r + mp.psiE * w < hi * U)
    (hff : lo * U ≤ permExFf c w nW U ∧ permExFf c w nW U ≤ hi * U) {st : St ℝ S (CConv ℝ) P} (hst : Feeds st.conv low) (i : ℝ) :
    ClassicSettles p tq tau nW nT nI U w r i c x st := by
  have ha0 : 0 < a := by linarith
  have hZ : mp.ra + 0 * w = mp.ra := by ring
  set y := mp.ra * tau / mp.la with hy
  have hy0 : 0 < y := by positivity
  have hw := winding_exact (w := w) (permEx_winding mp) hL.ne' (by rw [hZ]; exact hR.ne') hτ.le hp
  have e : -((mp.ra + 0 * w) / mp.la) * tau = -y := by rw [hZ, hy]; ring
  rw [e] at hw
  have hexp1 : 1 ≤ Real.exp y := Real.one_le_exp hy0.le
  have hstep' : Real.exp y ≤ 1 + a * y := by
    have : 0 ≤ 1 / a ^ 2 * (Real.exp y - 1) := mul_nonneg (by positivity) (by linarith)
    linarith
  obtain ⟨a1, a2, a3, a4⟩ := exact_factor hy0 hstep'
  obtain ⟨d1, -⟩ := damped_four hR hL hτ ha
  obtain ⟨d3, d4⟩ := damped hR hL hτ ha0 a2 a1 a3 a4 le_rfl d1
  have hq0 : 0 < mp.la / (tau * a) := by positivity
  have hqa : 0 < mp.la / (tau * a) / a ^ 2 := by positivity
  have hβ : 0 < (1 - Real.exp (-y)) / mp.ra := div_pos (by linarith) hR
  refine c129_classic (f0 := permExFf c w nW U) (f1 := 0) hc hu hi' hw tq hU hnI hlim hL hτ ha0 (by rw [hZ]; exact hR) a1 a2 (fun s hs => ?_)
    hq0.le ?_ ?_ (by rw [hZ]; exact hreach) (by simpa using hff) hst trivial i
  · simp only [Classic.ContAction.feedforward, if_pos hpsi, Except.map]
    obtain ⟨-, -, -, h0⟩ := hc.state
    rw [h0, hs, permExFf]
    congr 1
    field_simp
    ring
  · rw [hZ, sub_zero]
    have h1 : Real.exp (-y) * Real.exp y = 1 := by rw [← Real.exp_add]; simp
    have h2 : (1 + 1 / a ^ 2) * (1 - Real.exp (-y)) ≤ a * y * Real.exp (-y) := by
      have : (1 + 1 / a ^ 2) * (Real.exp y - 1) * Real.exp (-y) ≤ a * y * Real.exp (-y) := mul_le_mul_of_nonneg_right hstep a1.le
      calc _ = (1 + 1 / a ^ 2) * (Real.exp (-y) * Real.exp y - Real.exp (-y)) := by rw [h1]
        _ = (1 + 1 / a ^ 2) * (Real.exp y - 1) * Real.exp (-y) := by ring
        _ ≤ _ := this
    have h3 : (1 - Real.exp (-y)) / mp.ra * (mp.la / (tau * a) + mp.la / (tau * a) / a ^ 2)
        = (1 + 1 / a ^ 2) * (1 - Real.exp (-y)) / (a * y) := by rw [hy]; field_simp
    rw [h3, div_le_iff₀ (by positivity)]
    linarith
  · rw [hZ, sub_zero]
    rw [sub_zero] at d4
    refine d4.trans (pow_le_pow_left₀ ?_ ?_ 2)
    · have := mul_pos hβ hq0
      linarith
    · have := mul_pos hβ hqa
      rw [mul_add]
      linarith

/-- C129 (classic controllers of series motors, exact solutions): the compensation of the EMF lessens the effective gain. -/
theorem c129_classic_series {p : Parts ℝ (DcY ℝ) (List ℝ) (List ℝ) S (CConv ℝ) P} {mp : DcParams ℝ} {tau a w U lo hi low nW nT nI r : ℝ}
    {c : Classic.ContAction ℝ} {x : Classic.Cont ℝ × Classic.Cont ℝ} (hc : ClassicCurrent c x.1 (mp.la + mp.le) tau a lo hi U nI)
    (hu : Uses p contPower) (hi' : Ideal p U) (hp : TracksWinding p (seriesTorque mp) (seriesOde mp)) (tq : List ℝ → ℝ)
    (hU : 0 < U) (hnI : nI ≠ 0) (hlim : low ≤ lo ∧ lo ≤ hi ∧ hi ≤ 1) (hL : 0 < mp.la + mp.le) (hR : 0 < seriesR mp w) (hτ : 0 < tau) (ha : 0 < a)
    (hpsi : c.psi = 0) (hl : c.l = some mp.lePrime) (hσ : 0 ≤ seriesFf c mp.lePrime w nW nI U)
    (hgain : seriesFf c mp.lePrime w nW nI U ≤ (mp.la + mp.le) / (tau * a))
    (hstep : (1 + 1 / a ^ 2) * (Real.exp (seriesR mp w * tau / (mp.la + mp.le)) - 1) ≤ a * (seriesR mp w * tau / (mp.la + mp.le)))
    (hdamp : 4 * ((mp.la + mp.le) / (tau * a)) ^ 2 * (1 + seriesR mp w * tau / (mp.la + mp.le))
      ≤ a * ((mp.la + mp.le) / (tau * a) + (seriesR mp w - seriesFf c mp.lePrime w nW nI U)) ^ 2)
    (hreach : lo * U < seriesR mp w * r ∧ seriesR mp w * r < hi * U)
    (hff : lo * U ≤ seriesFf c mp.lePrime w nW nI U * r ∧ seriesFf c mp.lePrime w nW nI U * r ≤ hi * U)
    {st : St ℝ S (CConv ℝ) P} (hst : Feeds st.conv low) (i : ℝ) :
    ClassicSettles p tq tau nW nT nI U w r i c x st := by
  set L := mp.la + mp.le with hLd
  set y := seriesR mp w * tau / L with hy
  set σ := seriesFf c mp.lePrime w nW nI U with hσd
  have hy0 : 0 < y := by positivity
  have hw := winding_exact (w := w) (series_winding mp) hL.ne' hR.ne' hτ.le hp
  have e : -((mp.ra + mp.re + mp.lePrime * w) / (mp.la + mp.le)) * tau = -y := by
    rw [hy, hLd]; unfold seriesR; ring
  rw [e] at hw
  have hexp1 : 1 ≤ Real.exp y := Real.one_le_exp hy0.le
  have hstep' : Real.exp y ≤ 1 + a * y := by
    have : 0 ≤ 1 / a ^ 2 * (Real.exp y - 1) := mul_nonneg (by positivity) (by linarith)
    linarith
  obtain ⟨a1, a2, a3, a4⟩ := exact_factor hy0 hstep'
  obtain ⟨d3, d4⟩ := damped hR hL hτ ha a2 a1 a3 a4 hσ hdamp
  have hq0 : 0 < L / (tau * a) := by positivity
  have hqa : 0 < L / (tau * a) / a ^ 2 := by positivity
  have hβ : 0 < (1 - Real.exp (-y)) / seriesR mp w := div_pos (by linarith) hR
  refine c129_classic (f0 := 0) (f1 := σ) hc hu hi' hw tq hU hnI hlim hL hτ ha hR a1 a2 (fun s hs => ?_)
    hgain ?_ ?_ (by simpa [seriesR] using hreach) (by simpa using hff) hst trivial i
  · simp only [Classic.ContAction.feedforward, hpsi, ne_eq, not_true_eq_false, if_false, hl, Except.map]
    obtain ⟨-, -, h2, h0⟩ := hc.state
    rw [h0, h2, hs, hσd, seriesFf]
    congr 1
    field_simp
    ring
  · show (1 - Real.exp (-y)) / seriesR mp w * _ ≤ _
    have h1 : Real.exp (-y) * Real.exp y = 1 := by rw [← Real.exp_add]; simp
    have h2 : (1 + 1 / a ^ 2) * (1 - Real.exp (-y)) ≤ a * y * Real.exp (-y) := by
      have : (1 + 1 / a ^ 2) * (Real.exp y - 1) * Real.exp (-y) ≤ a * y * Real.exp (-y) := mul_le_mul_of_nonneg_right hstep a1.le
      calc _ = (1 + 1 / a ^ 2) * (Real.exp (-y) * Real.exp y - Real.exp (-y)) := by rw [h1]
        _ = (1 + 1 / a ^ 2) * (Real.exp y - 1) * Real.exp (-y) := by ring
        _ ≤ _ := this
    have h3 : (1 - Real.exp (-y)) / seriesR mp w * (L / (tau * a) + L / (tau * a) / a ^ 2)
        = (1 + 1 / a ^ 2) * (1 - Real.exp (-y)) / (a * y) := by rw [hy]; field_simp
    have h4 : (1 - Real.exp (-y)) / seriesR mp w * (L / (tau * a) + L / (tau * a) / a ^ 2) ≤ Real.exp (-y) := by
      rw [h3, div_le_iff₀ (by positivity)]
      linarith
    have := mul_nonneg hβ.le hσ
    rw [mul_sub]
    linarith
  · show 4 * ((1 - Real.exp (-y)) / seriesR mp w * _) ≤ (1 - Real.exp (-y) + (1 - Real.exp (-y)) / seriesR mp w * _) ^ 2
    refine d4.trans (pow_le_pow_left₀ ?_ ?_ 2)
    · have := mul_nonneg hβ.le (sub_nonneg.2 hgain)
      linarith
    · have := mul_pos hβ hqa
      have e : L / (tau * a) + L / (tau * a) / a ^ 2 - σ = (L / (tau * a) - σ) + L / (tau * a) / a ^ 2 := by ring
      rw [e, mul_add]
      linarith

/-! ## Cases -/

/-- the bound of the step length, up to the time constant of the winding -/
theorem step_bound_classic {x : ℝ} (hx : 0 ≤ x) (hx2 : x ≤ 1) : (1 + 1 / (4 : ℝ) ^ 2) * (Real.exp x - 1) ≤ 4 * x := by
  have h1 : Real.exp x ≤ (1 - x) * Real.exp 0 + x * Real.exp 1 := by
    have := convexOn_exp.2 (Set.mem_univ 0) (Set.mem_univ 1) (by linarith : (0 : ℝ) ≤ 1 - x) hx (by ring)
    simpa using this
  have h3 := Real.exp_one_lt_d9
  rw [Real.exp_zero] at h1
  nlinarith

/-- The default drive of `Cont-CC-PermExDc-v0` with the controller that `Controller.make` tunes: nominal speed 300, limit 400. -/
example : ∃ p : Parts ℝ (DcY ℝ) (List ℝ) (List ℝ) (DcY ℝ × ℝ) (CConv ℝ) Unit, ∀ (r i : ℝ), |r| ≤ 210 →
    ∀ st : St ℝ (DcY ℝ × ℝ) (CConv ℝ) Unit, st.conv = newC .four →
      ClassicSettles p (fun l => 165 / 1000 * Reward.entry l 0) (1 / 10000) 400 38 210 60 100 r i
        { refState := 2, refIdx := 0, iIdx := 2, omegaIdx := 0, lo := -1, hi := 1, psi := 165 / 1000, l := none, nomOmega := 300, nomI := 97,
          nomU := 60, exc := none }
        (Classic.Cont.new (19 / 1000000 / (1 / 10000 * 4) / 60 * 210) (19 / 1000000 / (1 / 10000 * 4) / 60 * 210 / (1 / 10000 * 4 ^ 2)) none
          (1 / 10000), Classic.Cont.new 0 0 none 0) st := by
  obtain ⟨motion, hm⟩ := motions_exist default_motions.2 .const trivial
  obtain ⟨-, h2, h3⟩ := moving_shaped contPower 60 motion
  refine ⟨_, fun r i hr st hst => c129_classic_permEx (mp := permExDefault) (tau := 1 / 10000) (a := 4) (w := 100) (nW := 400) (nT := 38)
    (nI := 210) (lo := -1) (hi := 1) (low := -1) (U := 60) ⟨⟨rfl, rfl, rfl, rfl⟩, rfl, rfl, rfl, rfl, rfl, rfl, rfl⟩ h2 h3 (moving_tracks hm) _
    (by norm_num) (by norm_num) (by norm_num)
    (by norm_num [permExDefault]) (by norm_num [permExDefault]) (by norm_num) le_rfl ?_ (by norm_num) ?_ ?_ ?_ i⟩
  · exact step_bound_classic (by norm_num [permExDefault]) (by norm_num [permExDefault])
  · have := abs_le.1 hr
    simp only [permExDefault]
    constructor <;> linarith
  · norm_num [permExFf]
  · rw [hst]
    exact .four _ rfl rfl rfl

/-- The default drive of `Cont-CC-SeriesDc-v0`. -/
example : ∃ p : Parts ℝ (DcY ℝ) (List ℝ) (List ℝ) (DcY ℝ × ℝ) (CConv ℝ) Unit, ∀ (r i : ℝ), |r| ≤ 210 →
    ∀ st : St ℝ (DcY ℝ × ℝ) (CConv ℝ) Unit, st.conv = newC .four →
      ClassicSettles p (fun l => seriesTorque seriesDefault ![Reward.entry l 0]) (1 / 10000) 400 38 210 60 100 r i
        { refState := 2, refIdx := 0, iIdx := 2, omegaIdx := 0, lo := -1, hi := 1, psi := 0, l := some (17 / 10000), nomOmega := 300, nomI := 97,
          nomU := 60, exc := none }
        (Classic.Cont.new ((19 / 1000000 + 54 / 10000) / (1 / 10000 * 4) / 60 * 210)
          ((19 / 1000000 + 54 / 10000) / (1 / 10000 * 4) / 60 * 210 / (1 / 10000 * 4 ^ 2)) none (1 / 10000), Classic.Cont.new 0 0 none 0) st := by
  obtain ⟨motion, hm⟩ := motions_exist default_motions.1 .const trivial
  obtain ⟨-, h2, h3⟩ := moving_shaped contPower 60 motion
  refine ⟨_, fun r i hr st hst => c129_classic_series (mp := seriesDefault) (tau := 1 / 10000) (a := 4) (w := 100) (nW := 400) (nT := 38)
    (nI := 210) (lo := -1) (hi := 1) (low := -1) (U := 60) ⟨⟨rfl, rfl, rfl, rfl⟩, rfl, rfl, rfl, rfl, rfl, rfl, rfl⟩ h2 h3 (moving_tracks hm) _
    (by norm_num) (by norm_num) (by norm_num)
    (by norm_num [seriesDefault]) (by norm_num [seriesDefault, seriesR]) (by norm_num) (by norm_num) rfl rfl
    (by norm_num [seriesFf, seriesDefault]) (by norm_num [seriesFf, seriesDefault]) ?_ (by norm_num [seriesFf, seriesDefault, seriesR]) ?_ ?_ ?_ i⟩
  · exact step_bound_classic (by norm_num [seriesDefault, seriesR]) (by norm_num [seriesDefault, seriesR])
  · have := abs_le.1 hr
    simp only [seriesDefault, seriesR]
    constructor <;> linarith
  · have := abs_le.1 hr
    simp only [seriesDefault, seriesFf]
    constructor <;> linarith
  · rw [hst]
    exact .four _ rfl rfl rfl

end

end GEM.Props
