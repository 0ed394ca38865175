import Mathlib.Analysis.SpecialFunctions.Trigonometric.Basic
import Mathlib.Analysis.SpecialFunctions.Complex.Arg
import Mathlib.Tactic.Linarith
import Mathlib.Tactic.Positivity
import Mathlib.Tactic.FieldSimp
import Mathlib.Tactic.NormNum
import Verif.Proofs.Limits
import Verif.Model.InitialFlux

/-!
# Properties of the initial states of induction motors (C120)
-/

set_option linter.unusedSectionVars false

namespace GEM.Props

open GEM GEM.Init GEM.Utils GEM.Motor

/-- The ratings of an induction motor: nominal values of the quantities that matter for the start, all of them given. -/
structure Ratings (m : ImAttr) where
  ia : ℝ
  ib : ℝ
  eps : ℝ
  isd : ℝ
  uq : ℝ
  urq : ℝ
  h_ia : lookup m.nominal "i_salpha" = some ia
  h_ib : lookup m.nominal "i_sbeta" = some ib
  h_eps : lookup m.nominal "epsilon" = some eps
  h_isd : lookup m.nominal "i_sd" = some isd
  h_uq : lookup m.nominal "u_sq" = some uq
  h_urq : if m.dfim then lookup m.nominal "u_rq" = some urq else urq = 0

/-- A full set of initial values. -/
def fullStart (a b f g e : ℝ) : Dict ℝ :=
  [("i_salpha", a), ("i_sbeta", b), ("psi_ralpha", f), ("psi_rbeta", g), ("epsilon", e)]

/-- largest flux for a given angle of the field and the currents of the last start -/
noncomputable def crest (m : ImAttr) (r : Ratings m) (omega eps a b : ℝ) : ℝ :=
  if omega = 0 then m.mp.lm * r.isd
  else 9 / 10 * clip ((m.mp.p * omega * m.mp.sigma * m.mp.ls * (qInv ![a, b] eps 0) +
    (m.mp.rs + m.mp.rr * (m.mp.lm / m.mp.lr) ^ 2) * (qInv ![a, b] eps 1) + r.uq + (m.mp.lm / m.mp.lr) * r.urq) /
      (-m.mp.p * omega * (m.mp.lm / m.mp.lr))) 0 |m.mp.lm * (qInv ![a, b] eps 0)|

/-- the angle made of numpy's draw -/
noncomputable def fieldAngle (u : ℝ) : ℝ := 2 * Real.pi * u - Real.pi

theorem clip_nonneg (x y : ℝ) : 0 ≤ clip x 0 |y| := le_min (le_max_right _ _) (abs_nonneg _)

theorem clip_le (x y : ℝ) : clip x 0 |y| ≤ |y| := min_le_right _ _

theorem get_of {d : Dict ℝ} {k : String} {x : ℝ} (h : lookup d k = some x) : Init.get d k = .ok x := by
  unfold Init.get; rw [h]

theorem flux_eq (m : ImAttr) (r : Ratings m) (omega eps : ℝ) (cur : Dict ℝ) (a b : ℝ)
    (ha : lookup cur "i_salpha" = some a) (hb : lookup cur "i_sbeta" = some b) :
    fluxLimit m omega eps r.uq r.urq cur = .ok ![Real.cos eps * crest m r omega eps a b, Real.sin eps * crest m r omega eps a b] := by
  unfold fluxLimit crest
  by_cases h : omega = 0
  · simp only [h, if_true, get_of r.h_isd, bind, Except.bind, Motor.q]
    simp
  · simp only [h, if_false, get_of ha, get_of hb, bind, Except.bind, Motor.q]
    simp

/-- At standstill the currents are not looked at. -/
theorem flux_standstill (m : ImAttr) (r : Ratings m) (eps : ℝ) (cur : Dict ℝ) (a b : ℝ) :
    fluxLimit m 0 eps r.uq r.urq cur = .ok ![Real.cos eps * crest m r 0 eps a b, Real.sin eps * crest m r 0 eps a b] := by
  unfold fluxLimit crest
  simp only [if_true, get_of r.h_isd, bind, Except.bind, Motor.q]
  simp

theorem limits_of_flux (m : ImAttr) (r : Ratings m) (omega u : ℝ) (cur lim : Dict ℝ) (x y : ℝ)
    (h : fluxLimit m omega (fieldAngle u) r.uq r.urq cur = .ok ![x, y]) :
    ∃ lim', updateInitialLimits m omega u cur lim = .ok lim' ∧
      inductionBounds lim' none imOdeNames = .ok ([-|r.ia|, -|r.ib|, -|x|, -|y|, -|r.eps|], [|r.ia|, |r.ib|, |x|, |y|, |r.eps|]) ∧
      inductionBounds lim' none ["epsilon", "i_salpha", "i_sbeta", "psi_ralpha", "psi_rbeta"] =
        .ok ([-|r.eps|, -|r.ia|, -|r.ib|, -|x|, -|y|], [|r.eps|, |r.ia|, |r.ib|, |x|, |y|]) := by
  have hu := r.h_urq
  have key : ∀ x' y' : ℝ, |x'| = |x| → |y'| = |y| → inductionBounds (dictUpdate (dictUpdate lim m.nominal)
      [("psi_ralpha", x'), ("psi_rbeta", y')]) none imOdeNames =
      .ok ([-|r.ia|, -|r.ib|, -|x|, -|y|, -|r.eps|], [|r.ia|, |r.ib|, |x|, |y|, |r.eps|]) ∧
      inductionBounds (dictUpdate (dictUpdate lim m.nominal) [("psi_ralpha", x'), ("psi_rbeta", y')]) none
        ["epsilon", "i_salpha", "i_sbeta", "psi_ralpha", "psi_rbeta"] =
        .ok ([-|r.eps|, -|r.ia|, -|r.ib|, -|x|, -|y|], [|r.eps|, |r.ia|, |r.ib|, |x|, |y|]) := by
    intro x' y' hx hy
    have l : ∀ k, lookup (dictUpdate (dictUpdate lim m.nominal) [("psi_ralpha", x'), ("psi_rbeta", y')]) k =
        (lookup [("psi_ralpha", x'), ("psi_rbeta", y')] k).or ((lookup m.nominal k).or (lookup lim k)) := by
      intro k; rw [Limits.lookup_update, Limits.lookup_update]
    have g1 : Init.get (dictUpdate (dictUpdate lim m.nominal) [("psi_ralpha", x'), ("psi_rbeta", y')]) "i_salpha" = .ok r.ia :=
      get_of (by rw [l, r.h_ia]; simp [lookup])
    have g2 : Init.get (dictUpdate (dictUpdate lim m.nominal) [("psi_ralpha", x'), ("psi_rbeta", y')]) "i_sbeta" = .ok r.ib :=
      get_of (by rw [l, r.h_ib]; simp [lookup])
    have g3 : Init.get (dictUpdate (dictUpdate lim m.nominal) [("psi_ralpha", x'), ("psi_rbeta", y')]) "psi_ralpha" = .ok x' :=
      get_of (by rw [l]; simp [lookup])
    have g4 : Init.get (dictUpdate (dictUpdate lim m.nominal) [("psi_ralpha", x'), ("psi_rbeta", y')]) "psi_rbeta" = .ok y' :=
      get_of (by rw [l]; simp [lookup])
    have g5 : Init.get (dictUpdate (dictUpdate lim m.nominal) [("psi_ralpha", x'), ("psi_rbeta", y')]) "epsilon" = .ok r.eps :=
      get_of (by rw [l, r.h_eps]; simp [lookup])
    unfold inductionBounds imOdeNames
    simp only [List.mapM_cons, List.mapM_nil, g1, g2, g3, g4, g5, bind, Except.bind, pure, Except.pure, clipBounds]
    constructor <;> simp [bzip, hx, hy]
  unfold updateInitialLimits
  change fluxLimit m omega (2 * Real.pi * u - Real.pi) r.uq r.urq cur = _ at h
  cases hd : m.dfim with
  | true =>
    simp only [hd, if_true] at hu
    simp only [get_of r.h_uq, get_of hu, h, bind, Except.bind, if_true]
    exact ⟨_, rfl, key _ _ rfl rfl⟩
  | false =>
    rw [hd, if_neg (by simp)] at hu
    rw [hu] at h
    simp only [get_of r.h_uq, h, bind, Except.bind, Except.map, Bool.false_eq_true, if_false]
    exact ⟨_, rfl, key _ _ (by simp) (by simp)⟩

theorem full_merged (a b f g e a' b' f' g' e' : ℝ) :
    dictUpdate (dictUpdate (fullStart a b f g e) imDefaults) (fullStart a' b' f' g' e') = fullStart a' b' f' g' e' := by
  simp [fullStart, imDefaults, dictUpdate, dictSet]

theorem full_keys (a b f g e : ℝ) : (fullStart a b f g e).map Prod.fst = imOdeNames := rfl

theorem ball_five (p q : Fin 5 → ℝ) :
    ball [p 0, p 1, p 2, p 3, p 4] [q 0, q 1, q 2, q 3, q 4] = .ok (decide (∀ i, p i ≤ q i)) := by
  unfold ball
  simp only [bzip, List.length_cons, List.length_nil, if_true, List.zipWith_cons_cons, List.zipWith_nil_right, Except.map]
  congr 1
  rw [Bool.eq_iff_iff]
  simp [Fin.forall_fin_succ]

/-- Constant values: they are accepted exactly if they lie within the bounds. -/
theorem drawn_constant (c : Cfg ℝ) (hc : c.dist = none) (rvs : Rvs ℝ) (pool : ℕ) (draws : List ℝ) (a b f g e A B F G E : ℝ) :
    drawValues c rvs pool draws [-A, -B, -F, -G, -E] [A, B, F, G, E] (fullStart a b f g e) =
      if |a| ≤ A ∧ |b| ≤ B ∧ |f| ≤ F ∧ |g| ≤ G ∧ |e| ≤ E then .ok [a, b, f, g, e] else .error .generic := by
  have h1 := ball_five ![-A, -B, -F, -G, -E] ![a, b, f, g, e]
  have h2 := ball_five ![a, b, f, g, e] ![A, B, F, G, E]
  simp only [Matrix.cons_val] at h1 h2
  have hv : (fullStart a b f g e).map Prod.snd = [a, b, f, g, e] := rfl
  simp only [drawValues, hc, hv, h1, h2, bind, Except.bind, Bool.and_eq_true, decide_eq_true_eq]
  congr 1
  simp only [Fin.forall_fin_succ, Matrix.cons_val, abs_le, Fin.isValue, IsEmpty.forall_iff, and_true, eq_iff_iff]
  simp [Fin.forall_fin_succ]
  tauto

theorem write_full (a b f g e a' b' f' g' e' : ℝ) :
    writeBack (fullStart a b f g e) [a', b', f', g', e'] = fullStart a' b' f' g' e' := by
  simp [fullStart, writeBack, dictUpdate, dictSet]

/-- One reset of a motor with a full set of constant values. -/
theorem constant_reset (c : Cfg ℝ) (m : ImAttr) (r : Ratings m) (rvs : Rvs ℝ) (pool : ℕ) (omega u : ℝ) (draws : List ℝ)
    (a b f g e : ℝ) (hc : c.dist = none) (hi : c.interval = none) (hd : c.defaults = imDefaults)
    (hs : c.states = some (fullStart a b f g e)) (lim : Dict ℝ) :
    ∃ lim', imReset c m rvs pool omega u draws (fullStart a b f g e, lim) = ((fullStart a b f g e, lim'),
      if |a| ≤ |r.ia| ∧ |b| ≤ |r.ib| ∧ |f| ≤ |Real.cos (fieldAngle u) * crest m r omega (fieldAngle u) a b| ∧
        |g| ≤ |Real.sin (fieldAngle u) * crest m r omega (fieldAngle u) a b| ∧ |e| ≤ |r.eps|
      then .ok [a, b, f, g, e] else .error .generic) := by
  obtain ⟨lim', h1, h2, -⟩ := limits_of_flux m r omega u (fullStart a b f g e) lim _ _
    (flux_eq m r omega (fieldAngle u) (fullStart a b f g e) a b (by simp [fullStart, lookup]) (by simp [fullStart, lookup]))
  refine ⟨lim', ?_⟩
  have he : ¬ (c.states.getD []).isEmpty = true := by rw [hs]; simp [fullStart]
  have hs' : c.states.getD [] = fullStart a b f g e := by rw [hs]; rfl
  unfold imReset
  rw [if_neg he]
  simp only [h1]
  unfold motorInitialize
  simp only [hs', hd, full_merged, hi, full_keys, h2, bind, Except.bind, drawn_constant c hc]
  split_ifs with hh
  · simp only [write_full]
    rfl
  · rfl

theorem constant_resets (c : Cfg ℝ) (m : ImAttr) (r : Ratings m) (rvs : Rvs ℝ) (pool : ℕ)
    (a b f g e : ℝ) (hc : c.dist = none) (hi : c.interval = none) (hd : c.defaults = imDefaults)
    (hs : c.states = some (fullStart a b f g e)) (lim : Dict ℝ) (days : List Morning) :
    imResets c m rvs pool days (fullStart a b f g e, lim) = days.map (fun d =>
      if |a| ≤ |r.ia| ∧ |b| ≤ |r.ib| ∧ |f| ≤ |Real.cos (fieldAngle d.u) * crest m r d.omega (fieldAngle d.u) a b| ∧
        |g| ≤ |Real.sin (fieldAngle d.u) * crest m r d.omega (fieldAngle d.u) a b| ∧ |e| ≤ |r.eps|
      then .ok [a, b, f, g, e] else .error .generic) := by
  induction days generalizing lim with
  | nil => rfl
  | cons d ds ih =>
    obtain ⟨lim', h⟩ := constant_reset c m r rvs pool d.omega d.u d.draws a b f g e hc hi hd hs lim
    rw [imResets, h, List.map_cons]
    rw [ih lim']

theorem made_full (c : Cfg ℝ) (early arg : Dict ℝ) (a b f g e : ℝ) (hs : c.states = some (fullStart a b f g e)) :
    imMade c early arg = (fullStart a b f g e, limitsMade early arg) := by
  unfold imMade motorInitial
  rw [hs]
  simp [fullStart, dictUpdate, dictSet]

/-- The configuration of a motor that shall start in a given state: constant values for all states. -/
noncomputable def constantCfg (a b f g e : ℝ) : Cfg ℝ := ⟨imDefaults, some (fullStart a b f g e), none, none, none, none⟩

/-! ## C120 -/

/-- What holds: without flux the requested start state is reached in every episode, for every speed and every angle that is drawn, if
currents and angle lie within their nominal values; this includes the default initialiser.  Missing: starts with flux, see below. -/
theorem c120_without_flux_partial (m : ImAttr) (r : Ratings m) (a b e : ℝ) (ha : |a| ≤ r.ia) (hb : |b| ≤ r.ib) (he : |e| ≤ r.eps)
    (rvs : Rvs ℝ) (pool : ℕ) (early arg : Dict ℝ) (days : List Morning) (x : Except Err (List ℝ))
    (hx : x ∈ imResets (constantCfg a b 0 0 e) m rvs pool days (imMade (constantCfg a b 0 0 e) early arg)) :
    x = .ok [a, b, 0, 0, e] := by
  rw [made_full _ early arg a b 0 0 e rfl, constant_resets _ m r rvs pool a b 0 0 e rfl rfl rfl rfl] at hx
  obtain ⟨d, _, rfl⟩ := List.mem_map.1 hx
  rw [if_pos ⟨ha.trans (le_abs_self _), hb.trans (le_abs_self _), by rw [abs_zero]; exact abs_nonneg _, by rw [abs_zero]; exact abs_nonneg _, he.trans (le_abs_self _)⟩]

theorem angle_half : fieldAngle (1 / 2) = 0 := by unfold fieldAngle; ring

theorem angle_quarter : fieldAngle (3 / 4) = Real.pi / 2 := by unfold fieldAngle; ring

/-- every angle of [-π, π) can be drawn -/
theorem angle_drawn (eps : ℝ) (h1 : -Real.pi ≤ eps) (h2 : eps < Real.pi) : ∃ u, 0 ≤ u ∧ u < 1 ∧ fieldAngle u = eps := by
  refine ⟨(eps + Real.pi) / (2 * Real.pi), ?_, ?_, ?_⟩
  · have := Real.pi_pos; exact div_nonneg (by linarith) (by linarith)
  · have := Real.pi_pos; rw [div_lt_one (by linarith)]; linarith
  · have := Real.pi_pos; unfold fieldAngle; field_simp; ring

/-- angle of a vector -/
theorem angle_of (f g : ℝ) : ∃ u, 0 ≤ u ∧ u < 1 ∧ |f| = √(f ^ 2 + g ^ 2) * |Real.cos (fieldAngle u)| ∧
    |g| = √(f ^ 2 + g ^ 2) * |Real.sin (fieldAngle u)| := by
  set z : ℂ := ⟨f, g⟩
  have hn : ‖z‖ = √(f ^ 2 + g ^ 2) := by
    rw [Complex.norm_def, Complex.normSq_mk]; ring_nf
  have hc : ‖z‖ * Real.cos z.arg = f := Complex.norm_mul_cos_arg z
  have hs : ‖z‖ * Real.sin z.arg = g := Complex.norm_mul_sin_arg z
  have hl := Complex.neg_pi_lt_arg z
  rcases lt_or_eq_of_le (Complex.arg_le_pi z) with h | h
  · obtain ⟨u, h0, h1, h2⟩ := angle_drawn z.arg hl.le h
    refine ⟨u, h0, h1, ?_, ?_⟩
    · rw [h2, ← hn, show ‖z‖ = |‖z‖| from (abs_of_nonneg (norm_nonneg z)).symm, ← abs_mul, hc]
    · rw [h2, ← hn, show ‖z‖ = |‖z‖| from (abs_of_nonneg (norm_nonneg z)).symm, ← abs_mul, hs]
  · obtain ⟨u, h0, h1, h2⟩ := angle_drawn (-Real.pi) le_rfl (by have := Real.pi_pos; linarith)
    rw [h] at hc hs
    refine ⟨u, h0, h1, ?_, ?_⟩
    · rw [h2, ← hn, show ‖z‖ = |‖z‖| from (abs_of_nonneg (norm_nonneg z)).symm, ← abs_mul, Real.cos_neg, hc]
    · rw [h2, ← hn, show ‖z‖ = |‖z‖| from (abs_of_nonneg (norm_nonneg z)).symm, ← abs_mul, Real.sin_neg, mul_neg, hs, abs_neg]

/-- Violated: whether a start state with flux is accepted is left to chance.  For every non-zero flux up to the nominal magnetisation,
currents and angle within their nominal values, a motor at standstill accepts it for some draw of numpy's global generator and raises
for another one — in the same episode of the same motor with the same seed. -/
theorem c120_chance_violated (m : ImAttr) (r : Ratings m) (a b f g e : ℝ) (ha : |a| ≤ r.ia) (hb : |b| ≤ r.ib) (he : |e| ≤ r.eps)
    (hfg : (f, g) ≠ (0, 0)) (hmax : √(f ^ 2 + g ^ 2) ≤ m.mp.lm * r.isd)
    (rvs : Rvs ℝ) (pool : ℕ) (early arg : Dict ℝ) (days : List Morning) (draws : List ℝ) :
    ∃ u u', 0 ≤ u ∧ u < 1 ∧ 0 ≤ u' ∧ u' < 1 ∧
      (imResets (constantCfg a b f g e) m rvs pool (days ++ [⟨0, u, draws⟩]) (imMade (constantCfg a b f g e) early arg)).getLast? =
        some (.ok [a, b, f, g, e]) ∧
      (imResets (constantCfg a b f g e) m rvs pool (days ++ [⟨0, u', draws⟩]) (imMade (constantCfg a b f g e) early arg)).getLast? =
        some (.error .generic) := by
  rw [made_full _ early arg a b f g e rfl]
  simp only [constant_resets (constantCfg a b f g e) m r rvs pool a b f g e rfl rfl rfl rfl, List.map_append, List.map_cons, List.map_nil,
    List.getLast?_append, List.getLast?_singleton, Option.some_or]
  obtain ⟨u, h0, h1, h2, h3⟩ := angle_of f g
  have hk : ∀ u, crest m r 0 (fieldAngle u) a b = m.mp.lm * r.isd := fun u => by unfold crest; rw [if_pos rfl]
  have hk0 : 0 ≤ m.mp.lm * r.isd := (Real.sqrt_nonneg _).trans hmax
  have hno : ∃ u', 0 ≤ u' ∧ u' < 1 ∧ ¬ (|f| ≤ |Real.cos (fieldAngle u') * (m.mp.lm * r.isd)| ∧
      |g| ≤ |Real.sin (fieldAngle u') * (m.mp.lm * r.isd)|) := by
    by_cases hf : f = 0
    · have hg : g ≠ 0 := fun hg => hfg (by rw [hf, hg])
      refine ⟨1 / 2, by norm_num, by norm_num, ?_⟩
      rintro ⟨_, h⟩
      rw [angle_half, Real.sin_zero, zero_mul, abs_zero] at h
      exact hg (abs_eq_zero.1 (le_antisymm h (abs_nonneg _)))
    · refine ⟨3 / 4, by norm_num, by norm_num, ?_⟩
      rintro ⟨h, _⟩
      rw [angle_quarter, Real.cos_pi_div_two, zero_mul, abs_zero] at h
      exact hf (abs_eq_zero.1 (le_antisymm h (abs_nonneg _)))
  obtain ⟨u', h0', h1', hn⟩ := hno
  refine ⟨u, u', h0, h1, h0', h1', ?_, ?_⟩
  · rw [if_pos]
    refine ⟨ha.trans (le_abs_self _), hb.trans (le_abs_self _), ?_, ?_, he.trans (le_abs_self _)⟩
    · rw [hk, abs_mul, abs_of_nonneg hk0, h2, mul_comm]
      exact mul_le_mul_of_nonneg_left hmax (abs_nonneg _)
    · rw [hk, abs_mul, abs_of_nonneg hk0, h3, mul_comm]
      exact mul_le_mul_of_nonneg_left hmax (abs_nonneg _)
  · rw [if_neg]
    rintro ⟨_, _, h4, h5, _⟩
    rw [hk] at h4 h5
    exact hn ⟨h4, h5⟩

/-- Violated: the full nominal flux is accepted only for the angles whose cosine and sine agree with the flux up to the sign. -/
theorem c120_full_flux_violated (m : ImAttr) (r : Ratings m) (a b f g e : ℝ)
    (hmax : √(f ^ 2 + g ^ 2) = m.mp.lm * r.isd)
    (rvs : Rvs ℝ) (pool : ℕ) (early arg : Dict ℝ) (u : ℝ) (draws : List ℝ) (v : List ℝ)
    (h : imResets (constantCfg a b f g e) m rvs pool [⟨0, u, draws⟩] (imMade (constantCfg a b f g e) early arg) = [.ok v]) :
    |f| = √(f ^ 2 + g ^ 2) * |Real.cos (fieldAngle u)| ∧ |g| = √(f ^ 2 + g ^ 2) * |Real.sin (fieldAngle u)| := by
  rw [made_full _ early arg a b f g e rfl, constant_resets _ m r rvs pool a b f g e rfl rfl rfl rfl] at h
  simp only [List.map_cons, List.map_nil, List.cons.injEq, and_true] at h
  split_ifs at h with hh
  obtain ⟨_, _, h4, h5, _⟩ := hh
  have hk : crest m r 0 (fieldAngle u) a b = √(f ^ 2 + g ^ 2) := by unfold crest; rw [if_pos rfl, hmax]
  have hR := Real.sqrt_nonneg (f ^ 2 + g ^ 2)
  rw [hk, abs_mul, abs_of_nonneg hR, mul_comm] at h4 h5
  set R := √(f ^ 2 + g ^ 2)
  have hsq : R ^ 2 = f ^ 2 + g ^ 2 := Real.sq_sqrt (by positivity)
  have hcs := Real.cos_sq_add_sin_sq (fieldAngle u)
  have e1 : |f| ^ 2 + |g| ^ 2 = (R * |Real.cos (fieldAngle u)|) ^ 2 + (R * |Real.sin (fieldAngle u)|) ^ 2 := by
    rw [mul_pow, mul_pow, sq_abs, sq_abs, sq_abs, sq_abs, ← mul_add, hcs, mul_one, hsq]
  have p1 := pow_le_pow_left₀ (abs_nonneg f) h4 2
  have p2 := pow_le_pow_left₀ (abs_nonneg g) h5 2
  have n1 : 0 ≤ R * |Real.cos (fieldAngle u)| := mul_nonneg hR (abs_nonneg _)
  have n2 : 0 ≤ R * |Real.sin (fieldAngle u)| := mul_nonneg hR (abs_nonneg _)
  constructor
  · exact (pow_left_inj₀ (abs_nonneg f) n1 two_ne_zero).1 (by linarith)
  · exact (pow_left_inj₀ (abs_nonneg g) n2 two_ne_zero).1 (by linarith)

/-- Violated: a motor whose load turns does not accept any flux together with zero currents, whatever is drawn. -/
theorem c120_turning_violated (m : ImAttr) (r : Ratings m) (f g e : ℝ) (hfg : (f, g) ≠ (0, 0))
    (rvs : Rvs ℝ) (pool : ℕ) (early arg : Dict ℝ) (days : List Morning) (hd : ∀ d ∈ days, d.omega ≠ 0) (x : Except Err (List ℝ))
    (hx : x ∈ imResets (constantCfg 0 0 f g e) m rvs pool days (imMade (constantCfg 0 0 f g e) early arg)) :
    x = .error .generic := by
  rw [made_full _ early arg 0 0 f g e rfl, constant_resets _ m r rvs pool 0 0 f g e rfl rfl rfl rfl] at hx
  obtain ⟨d, h, rfl⟩ := List.mem_map.1 hx
  rw [if_neg]
  rintro ⟨_, _, h4, h5, _⟩
  have hk : crest m r d.omega (fieldAngle d.u) 0 0 = 0 := by
    unfold crest
    rw [if_neg (hd d h)]
    simp [qInv, Motor.q, clip]
  rw [hk, mul_zero, abs_zero] at h4 h5
  exact hfg (by rw [abs_eq_zero.1 (le_antisymm h4 (abs_nonneg _)), abs_eq_zero.1 (le_antisymm h5 (abs_nonneg _))])

theorem qInv_le (a b eps : ℝ) : |qInv ![a, b] eps 0| ≤ |a| + |b| ∧ |qInv ![a, b] eps 1| ≤ |a| + |b| := by
  have h1 := Real.abs_cos_le_one eps
  have h2 := Real.abs_sin_le_one eps
  have m1 : ∀ x, |Real.cos eps * x| ≤ |x| := fun x => by
    rw [abs_mul]; exact mul_le_of_le_one_left (abs_nonneg x) h1
  have m2 : ∀ x, |Real.sin eps * x| ≤ |x| := fun x => by
    rw [abs_mul]; exact mul_le_of_le_one_left (abs_nonneg x) h2
  constructor
  · have e : qInv ![a, b] eps 0 = Real.cos eps * a + Real.sin eps * b := by simp [qInv, Motor.q]
    rw [e]; exact (abs_add_le _ _).trans (add_le_add (m1 a) (m2 b))
  · have e : qInv ![a, b] eps 1 = Real.cos eps * b + -(Real.sin eps * a) := by simp [qInv, Motor.q]; ring
    rw [e]; refine (abs_add_le _ _).trans ?_
    rw [abs_neg, add_comm]; exact add_le_add (m2 a) (m1 b)

/-- Violated: at positive speeds no flux is accepted at all, with whatever currents, as long as the voltage drop over resistances and
stray inductances at this speed stays below the nominal voltage (compare the example below). -/
theorem c120_forward_violated (m : ImAttr) (r : Ratings m) (a b f g e : ℝ) (hfg : (f, g) ≠ (0, 0))
    (hp : 0 < m.mp.p) (hl : 0 < m.mp.lm) (hlr : 0 < m.mp.lr) (hs : 0 ≤ m.mp.sigma * m.mp.ls) (hr : 0 ≤ m.mp.rs) (hrr : 0 ≤ m.mp.rr)
    (hurq : 0 ≤ r.urq)
    (rvs : Rvs ℝ) (pool : ℕ) (early arg : Dict ℝ) (days : List Morning)
    (hd : ∀ d ∈ days, 0 < d.omega ∧ (m.mp.p * d.omega * (m.mp.sigma * m.mp.ls) + m.mp.rs + m.mp.rr * (m.mp.lm / m.mp.lr) ^ 2) *
      (|a| + |b|) ≤ r.uq) (x : Except Err (List ℝ))
    (hx : x ∈ imResets (constantCfg a b f g e) m rvs pool days (imMade (constantCfg a b f g e) early arg)) :
    x = .error .generic := by
  rw [made_full _ early arg a b f g e rfl, constant_resets _ m r rvs pool a b f g e rfl rfl rfl rfl] at hx
  obtain ⟨d, h, rfl⟩ := List.mem_map.1 hx
  obtain ⟨hw, hv⟩ := hd d h
  rw [if_neg]
  rintro ⟨_, _, h4, h5, _⟩
  have hk : crest m r d.omega (fieldAngle d.u) a b = 0 := by
    unfold crest
    rw [if_neg hw.ne']
    obtain ⟨q0, q1⟩ := qInv_le a b (fieldAngle d.u)
    have hlmr : 0 < m.mp.lm / m.mp.lr := div_pos hl hlr
    have c1 : 0 ≤ m.mp.p * d.omega * (m.mp.sigma * m.mp.ls) := mul_nonneg (mul_pos hp hw).le hs
    have c2 : 0 ≤ m.mp.rs + m.mp.rr * (m.mp.lm / m.mp.lr) ^ 2 := by positivity
    have b1 := mul_le_mul_of_nonneg_left (neg_le_of_abs_le q0) c1
    have b2 := mul_le_mul_of_nonneg_left (neg_le_of_abs_le q1) c2
    have hu := mul_nonneg hlmr.le hurq
    have hnum : 0 ≤ m.mp.p * d.omega * m.mp.sigma * m.mp.ls * (qInv ![a, b] (fieldAngle d.u) 0) +
        (m.mp.rs + m.mp.rr * (m.mp.lm / m.mp.lr) ^ 2) * (qInv ![a, b] (fieldAngle d.u) 1) + r.uq + (m.mp.lm / m.mp.lr) * r.urq := by
      nlinarith [b1, b2, hv, hu]
    have hden : -m.mp.p * d.omega * (m.mp.lm / m.mp.lr) < 0 := by
      have := mul_pos (mul_pos hp hw) hlmr
      linarith
    have hq := div_nonpos_of_nonneg_of_nonpos hnum hden.le
    unfold clip
    rw [max_eq_right hq, min_eq_left (abs_nonneg _), mul_zero]
  rw [hk, mul_zero, abs_zero] at h4 h5
  exact hfg (by rw [abs_eq_zero.1 (le_antisymm h4 (abs_nonneg _)), abs_eq_zero.1 (le_antisymm h5 (abs_nonneg _))])

/-! ### Random start states -/

/-- The configuration of a motor with uniformly distributed start values within the nominal range. -/
noncomputable def uniformCfg : Cfg ℝ := ⟨imDefaults, some (fullStart 0 0 0 0 0), none, some .uniform, none, none⟩

theorem one_morning {c : Cfg ℝ} {m : ImAttr} {rvs : Rvs ℝ} {pool : ℕ} {omega u : ℝ} {draws : List ℝ} {o o' : ImObj}
    {x : Except Err (List ℝ)} (h : imReset c m rvs pool omega u draws o = (o', x)) :
    imResets c m rvs pool [⟨omega, u, draws⟩] o = [x] := by
  rw [imResets, h, imResets]

theorem two_mornings {c : Cfg ℝ} {m : ImAttr} {rvs : Rvs ℝ} {pool : ℕ} {omega u omega' u' : ℝ} {draws draws' : List ℝ} {o o' o'' : ImObj}
    {x x' : Except Err (List ℝ)} (h : imReset c m rvs pool omega u draws o = (o', x))
    (h' : imReset c m rvs pool omega' u' draws' o' = (o'', x')) :
    (imResets c m rvs pool [⟨omega, u, draws⟩, ⟨omega', u', draws'⟩] o).getLast? = some x' := by
  rw [imResets, h, one_morning h']; rfl

theorem drawn_uniform (rvs : Rvs ℝ) (pool : ℕ) (d1 d2 d3 d4 d5 A B F G E : ℝ) (cur : Dict ℝ) :
    drawValues uniformCfg rvs pool [d1, d2, d3, d4, d5] [-A, -B, -F, -G, -E] [A, B, F, G, E] cur =
      .ok [A * (2 * d1 - 1), B * (2 * d2 - 1), F * (2 * d3 - 1), G * (2 * d4 - 1), E * (2 * d5 - 1)] := by
  simp only [drawValues, uniformCfg, bzip, List.length_cons, List.length_nil, if_true, List.zipWith_cons_cons,
    List.zipWith_nil_right, bind, Except.bind]
  congr 1
  simp only [List.cons.injEq, and_true]
  refine ⟨?_, ?_, ?_, ?_, ?_⟩ <;> ring

theorem uniform_reset (m : ImAttr) (r : Ratings m) (rvs : Rvs ℝ) (pool : ℕ) (omega u d1 d2 d3 d4 d5 a b f g e : ℝ) (lim : Dict ℝ) :
    ∃ lim', imReset uniformCfg m rvs pool omega u [d1, d2, d3, d4, d5] (fullStart a b f g e, lim) =
      ((fullStart (|r.ia| * (2 * d1 - 1)) (|r.ib| * (2 * d2 - 1))
        (|Real.cos (fieldAngle u) * crest m r omega (fieldAngle u) a b| * (2 * d3 - 1))
        (|Real.sin (fieldAngle u) * crest m r omega (fieldAngle u) a b| * (2 * d4 - 1)) (|r.eps| * (2 * d5 - 1)), lim'),
      .ok [|r.ia| * (2 * d1 - 1), |r.ib| * (2 * d2 - 1),
        |Real.cos (fieldAngle u) * crest m r omega (fieldAngle u) a b| * (2 * d3 - 1),
        |Real.sin (fieldAngle u) * crest m r omega (fieldAngle u) a b| * (2 * d4 - 1), |r.eps| * (2 * d5 - 1)]) := by
  obtain ⟨lim', h1, h2, -⟩ := limits_of_flux m r omega u (fullStart a b f g e) lim _ _
    (flux_eq m r omega (fieldAngle u) (fullStart a b f g e) a b (by simp [fullStart, lookup]) (by simp [fullStart, lookup]))
  refine ⟨lim', ?_⟩
  have he : ¬ (uniformCfg.states.getD []).isEmpty = true := by simp [uniformCfg, fullStart]
  have hs' : uniformCfg.states.getD [] = fullStart 0 0 0 0 0 := rfl
  have hd : uniformCfg.defaults = imDefaults := rfl
  have hi : uniformCfg.interval = none := rfl
  unfold imReset
  rw [if_neg he]
  simp only [h1]
  unfold motorInitialize
  simp only [hs', hd, full_merged, hi, full_keys, h2, bind, Except.bind, drawn_uniform, write_full]
  rfl

/-- Violated: with equal draws of the motor's own (seeded) generator the start states differ with the draw of numpy's global generator.
At standstill, for every draw but the exact middle of a flux component. -/
theorem c120_seed_violated (m : ImAttr) (r : Ratings m) (hl : m.mp.lm * r.isd ≠ 0) (rvs : Rvs ℝ) (pool : ℕ) (early arg : Dict ℝ)
    (d1 d2 d3 d4 d5 : ℝ) (h3 : d3 ≠ 1 / 2 ∨ d4 ≠ 1 / 2) :
    ∃ u u', 0 ≤ u ∧ u < 1 ∧ 0 ≤ u' ∧ u' < 1 ∧ ∃ v v',
      imResets uniformCfg m rvs pool [⟨0, u, [d1, d2, d3, d4, d5]⟩] (imMade uniformCfg early arg) = [.ok v] ∧
      imResets uniformCfg m rvs pool [⟨0, u', [d1, d2, d3, d4, d5]⟩] (imMade uniformCfg early arg) = [.ok v'] ∧ v ≠ v' := by
  rw [made_full uniformCfg early arg 0 0 0 0 0 rfl]
  have hk : ∀ u, crest m r 0 (fieldAngle u) 0 0 = m.mp.lm * r.isd := fun u => by unfold crest; rw [if_pos rfl]
  obtain ⟨l1, e1⟩ := uniform_reset m r rvs pool 0 (1 / 2) d1 d2 d3 d4 d5 0 0 0 0 0 (limitsMade early arg)
  obtain ⟨l2, e2⟩ := uniform_reset m r rvs pool 0 (3 / 4) d1 d2 d3 d4 d5 0 0 0 0 0 (limitsMade early arg)
  have f1 := one_morning e1
  have f2 := one_morning e2
  refine ⟨1 / 2, 3 / 4, by norm_num, by norm_num, by norm_num, by norm_num, _, _, f1, f2, ?_⟩
  · rw [angle_half, angle_quarter]
    intro h
    simp only [List.cons.injEq, and_true, true_and] at h
    obtain ⟨h5, h6⟩ := h
    have k1 := hk (1 / 2)
    have k2 := hk (3 / 4)
    rw [angle_half] at k1
    rw [angle_quarter] at k2
    rw [k1, k2, Real.cos_zero, Real.cos_pi_div_two, one_mul, zero_mul, abs_zero, zero_mul] at h5
    rw [k1, k2, Real.sin_zero, Real.sin_pi_div_two, one_mul, zero_mul, abs_zero, zero_mul] at h6
    rcases h3 with h3 | h3
    · rcases mul_eq_zero.1 h5 with h7 | h7
      · exact hl (abs_eq_zero.1 h7)
      · exact h3 (by linarith)
    · rcases mul_eq_zero.1 h6.symm with h7 | h7
      · exact hl (abs_eq_zero.1 h7)
      · exact h3 (by linarith)

/-- Violated: the start depends on the currents the episode before started with.  Two motors that turn backwards in every episode and
get equal draws in the second one — from numpy's and from their own generator — start the second episode in different states. -/
theorem c120_memory_violated (m : ImAttr) (r : Ratings m) (hp : 0 < m.mp.p) (hl : 0 < m.mp.lm) (hlr : 0 < m.mp.lr) (hia : 0 < r.ia)
    (huq : 0 < r.uq) (hurq : 0 ≤ r.urq) (omega : ℝ) (hw : omega < 0) (rvs : Rvs ℝ) (pool : ℕ) (early arg : Dict ℝ) :
    ∃ d d' s : List ℝ, (∀ l ∈ [d, d', s], l.length = 5 ∧ ∀ x ∈ l, 0 ≤ x ∧ x ≤ 1) ∧ ∃ v v',
      (imResets uniformCfg m rvs pool [⟨omega, 1 / 2, d⟩, ⟨omega, 1 / 2, s⟩] (imMade uniformCfg early arg)).getLast? = some (.ok v) ∧
      (imResets uniformCfg m rvs pool [⟨omega, 1 / 2, d'⟩, ⟨omega, 1 / 2, s⟩] (imMade uniformCfg early arg)).getLast? = some (.ok v') ∧
      v ≠ v' := by
  have hlmr : 0 < m.mp.lm / m.mp.lr := div_pos hl hlr
  set N := m.mp.p * omega * m.mp.sigma * m.mp.ls with hN
  obtain ⟨t, ht0, ht1, htN⟩ : ∃ t : ℝ, 0 < t ∧ t ≤ 1 ∧ 0 < N * (r.ia * t) + r.uq := by
    refine ⟨min 1 (r.uq / (2 * (|N| * r.ia + 1))), lt_min one_pos (by positivity), min_le_left _ _, ?_⟩
    set t := min 1 (r.uq / (2 * (|N| * r.ia + 1))) with ht
    have ht0 : 0 < t := lt_min one_pos (by positivity)
    have h1 : t ≤ r.uq / (2 * (|N| * r.ia + 1)) := min_le_right _ _
    rw [le_div_iff₀ (by positivity)] at h1
    have h2 : -(|N|) * (r.ia * t) ≤ N * (r.ia * t) := mul_le_mul_of_nonneg_right (neg_abs_le N) (by positivity)
    nlinarith [abs_nonneg N, ht0]
  have hcrest : ∀ a, 0 ≤ a → 0 < N * a + r.uq → (crest m r omega 0 a 0 = 0 ↔ a = 0) := by
    intro a ha hpos
    unfold crest
    rw [if_neg hw.ne]
    have q0 : qInv ![a, 0] 0 0 = a := by simp [qInv, Motor.q]
    have q1 : qInv ![a, 0] 0 1 = 0 := by simp [qInv, Motor.q]
    rw [q0, q1]
    have hden : 0 < -m.mp.p * omega * (m.mp.lm / m.mp.lr) := by
      have := mul_pos hp (neg_pos.2 hw)
      have := mul_pos this hlmr
      linarith
    have hnum : 0 < m.mp.p * omega * m.mp.sigma * m.mp.ls * a + (m.mp.rs + m.mp.rr * (m.mp.lm / m.mp.lr) ^ 2) * 0 + r.uq +
        m.mp.lm / m.mp.lr * r.urq := by
      have := mul_nonneg hlmr.le hurq
      rw [mul_zero, add_zero]
      rw [← hN]; linarith
    have hx := div_pos hnum hden
    rw [abs_of_nonneg (mul_nonneg hl.le ha)]
    unfold clip
    rw [max_eq_left hx.le]
    constructor
    · intro h
      have h1 : min ((m.mp.p * omega * m.mp.sigma * m.mp.ls * a + (m.mp.rs + m.mp.rr * (m.mp.lm / m.mp.lr) ^ 2) * 0 + r.uq +
        m.mp.lm / m.mp.lr * r.urq) / (-m.mp.p * omega * (m.mp.lm / m.mp.lr))) (m.mp.lm * a) = 0 := by linarith
      by_contra hne
      have ha' : 0 < a := lt_of_le_of_ne ha (Ne.symm hne)
      exact absurd h1 (lt_min hx (mul_pos hl ha')).ne'
    · rintro rfl
      rw [mul_zero m.mp.lm, min_eq_right hx.le, mul_zero]
  rw [made_full uniformCfg early arg 0 0 0 0 0 rfl]
  refine ⟨[(1 + t) / 2, 1 / 2, 1, 1 / 2, 1 / 2], [1 / 2, 1 / 2, 1, 1 / 2, 1 / 2], [1 / 2, 1 / 2, 1, 1 / 2, 1 / 2], ?_, ?_⟩
  · intro l hl
    simp only [List.mem_cons, List.not_mem_nil, or_false] at hl
    rcases hl with rfl | rfl | rfl <;> refine ⟨rfl, fun x hx => ?_⟩ <;>
      simp only [List.mem_cons, List.not_mem_nil, or_false] at hx <;>
      rcases hx with rfl | rfl | rfl | rfl | rfl <;> constructor <;> linarith
  · obtain ⟨l1, e1⟩ := uniform_reset m r rvs pool omega (1 / 2) ((1 + t) / 2) (1 / 2) 1 (1 / 2) (1 / 2) 0 0 0 0 0 (limitsMade early arg)
    obtain ⟨l2, e2⟩ := uniform_reset m r rvs pool omega (1 / 2) (1 / 2) (1 / 2) 1 (1 / 2) (1 / 2) 0 0 0 0 0 (limitsMade early arg)
    obtain ⟨l3, e3⟩ := uniform_reset m r rvs pool omega (1 / 2) (1 / 2) (1 / 2) 1 (1 / 2) (1 / 2) _ _ _ _ _ l1
    obtain ⟨l4, e4⟩ := uniform_reset m r rvs pool omega (1 / 2) (1 / 2) (1 / 2) 1 (1 / 2) (1 / 2) _ _ _ _ _ l2
    have f1 := two_mornings e1 e3
    have f2 := two_mornings e2 e4
    refine ⟨_, _, f1, f2, ?_⟩
    · intro h
      simp only [List.cons.injEq, and_true, true_and] at h
      obtain ⟨h5, _⟩ := h
      have s1 : |r.ia| * (2 * ((1 + t) / 2) - 1) = r.ia * t := by rw [abs_of_pos hia]; ring
      have s2 : ∀ y : ℝ, y * (2 * (1 / 2) - 1) = 0 := fun y => by ring
      rw [angle_half, Real.cos_zero, one_mul, one_mul, s1, s2, s2, (hcrest 0 le_rfl (by simpa using huq)).2 rfl, abs_zero] at h5
      have : crest m r omega 0 (r.ia * t) 0 = 0 := by
        have := h5; norm_num at this; exact this
      exact (mul_pos hia ht0).ne' ((hcrest _ (mul_pos hia ht0).le htN).1 this)

/-- What holds: whatever is drawn and whatever happened in earlier episodes, random start states lie within the nominal currents, and
their flux does not exceed the nominal magnetisation at standstill, resp. 90 % of that of the nominal currents for a load that turns.
Missing: independence of global draws and of earlier episodes, see above. -/
theorem c120_range_partial (m : ImAttr) (r : Ratings m) (rvs : Rvs ℝ) (pool : ℕ) (early arg : Dict ℝ) (days : List Morning)
    (hd : ∀ d ∈ days, d.draws.length = 5 ∧ ∀ x ∈ d.draws, 0 ≤ x ∧ x ≤ 1) :
    List.Forall₂ (fun d x => ∃ a b f g e, x = .ok [a, b, f, g, e] ∧ |a| ≤ |r.ia| ∧ |b| ≤ |r.ib| ∧ |e| ≤ |r.eps| ∧
      √(f ^ 2 + g ^ 2) ≤ if d.omega = 0 then |m.mp.lm * r.isd| else 9 / 10 * (|m.mp.lm| * (|r.ia| + |r.ib|)))
      days (imResets uniformCfg m rvs pool days (imMade uniformCfg early arg)) := by
  rw [made_full uniformCfg early arg 0 0 0 0 0 rfl]
  have key : ∀ (ds : List Morning) (a b f g e : ℝ) (lim : Dict ℝ), |a| ≤ |r.ia| → |b| ≤ |r.ib| →
      (∀ d ∈ ds, d.draws.length = 5 ∧ ∀ x ∈ d.draws, 0 ≤ x ∧ x ≤ 1) →
      List.Forall₂ (fun d x => ∃ a b f g e, x = .ok [a, b, f, g, e] ∧ |a| ≤ |r.ia| ∧ |b| ≤ |r.ib| ∧ |e| ≤ |r.eps| ∧
        √(f ^ 2 + g ^ 2) ≤ if d.omega = 0 then |m.mp.lm * r.isd| else 9 / 10 * (|m.mp.lm| * (|r.ia| + |r.ib|)))
        ds (imResets uniformCfg m rvs pool ds (fullStart a b f g e, lim)) := by
    intro ds
    induction ds with
    | nil => intros; exact List.Forall₂.nil
    | cons d ds ih =>
      intro a b f g e lim ha hb hds
      obtain ⟨hlen, hu⟩ := hds d (by simp)
      obtain ⟨omega, u, draws⟩ := d
      simp only at hlen hu
      match draws, hlen with
      | [d1, d2, d3, d4, d5], _ =>
        obtain ⟨lim', h⟩ := uniform_reset m r rvs pool omega u d1 d2 d3 d4 d5 a b f g e lim
        have hin : ∀ x ∈ [d1, d2, d3, d4, d5], ∀ y : ℝ, |(|y| * (2 * x - 1))| ≤ |y| := by
          intro x hx y
          obtain ⟨h0, h1⟩ := hu x hx
          rw [abs_mul, abs_abs]
          exact mul_le_of_le_one_right (abs_nonneg y) (abs_le.2 ⟨by linarith, by linarith⟩)
        rw [imResets, h]
        refine List.Forall₂.cons ⟨_, _, _, _, _, rfl, hin d1 (by simp) _, hin d2 (by simp) _, hin d5 (by simp) _, ?_⟩
          (ih _ _ _ _ _ _ (hin d1 (by simp) _) (hin d2 (by simp) _) (fun d hd => hds d (by simp [hd])))
        have hf := hin d3 (by simp) (Real.cos (fieldAngle u) * crest m r omega (fieldAngle u) a b)
        have hg := hin d4 (by simp) (Real.sin (fieldAngle u) * crest m r omega (fieldAngle u) a b)
        have h2 : √((|Real.cos (fieldAngle u) * crest m r omega (fieldAngle u) a b| * (2 * d3 - 1)) ^ 2 +
            (|Real.sin (fieldAngle u) * crest m r omega (fieldAngle u) a b| * (2 * d4 - 1)) ^ 2) ≤ |crest m r omega (fieldAngle u) a b| := by
          apply Real.sqrt_le_iff.2
          refine ⟨abs_nonneg _, ?_⟩
          have p1 := sq_le_sq.2 hf
          have p2 := sq_le_sq.2 hg
          have hcs := Real.cos_sq_add_sin_sq (fieldAngle u)
          rw [sq_abs]
          calc _ ≤ (Real.cos (fieldAngle u) * crest m r omega (fieldAngle u) a b) ^ 2 +
                (Real.sin (fieldAngle u) * crest m r omega (fieldAngle u) a b) ^ 2 := add_le_add p1 p2
            _ = (Real.cos (fieldAngle u) ^ 2 + Real.sin (fieldAngle u) ^ 2) * crest m r omega (fieldAngle u) a b ^ 2 := by ring
            _ = crest m r omega (fieldAngle u) a b ^ 2 := by rw [hcs, one_mul]
        refine h2.trans ?_
        unfold crest
        by_cases hw : omega = 0
        · simp only [hw, if_true]; exact le_rfl
        · simp only [hw, if_false]
          rw [abs_mul, abs_of_nonneg (clip_nonneg _ _), abs_of_nonneg (by norm_num : (0 : ℝ) ≤ 9 / 10)]
          refine mul_le_mul_of_nonneg_left ((clip_le _ _).trans ?_) (by norm_num)
          rw [abs_mul]
          exact mul_le_mul_of_nonneg_left ((qInv_le a b _).1.trans (add_le_add ha hb)) (abs_nonneg _)
  exact key days 0 0 0 0 0 _ (by simp) (by simp) hd

/-! ### Arguments without effect, incomplete dictionaries -/

theorem keys_update (d u : Dict ℝ) (k : String) :
    k ∈ (dictUpdate d u).map Prod.fst ↔ k ∈ u.map Prod.fst ∨ k ∈ d.map Prod.fst := by
  rw [← Limits.lookup_isSome, Limits.lookup_update, ← Limits.lookup_isSome, ← Limits.lookup_isSome]
  cases lookup u k <;> simp

theorem mapM_congr_get (d d' : Dict ℝ) (ks : List String) (h : ∀ k ∈ ks, lookup d k = lookup d' k) :
    ks.mapM (Init.get d) = ks.mapM (Init.get d') := by
  induction ks with
  | nil => rfl
  | cons k ks ih =>
    have : Init.get d k = Init.get d' k := by unfold Init.get; rw [h k (by simp)]
    rw [List.mapM_cons, List.mapM_cons, this, ih (fun k hk => h k (by simp [hk]))]

theorem limits_forget (m : ImAttr) (r : Ratings m) (omega u : ℝ) (cur lim lim' : Dict ℝ) :
    (∃ e, updateInitialLimits m omega u cur lim = .error e ∧ updateInitialLimits m omega u cur lim' = .error e) ∨
    ∃ l l', updateInitialLimits m omega u cur lim = .ok l ∧ updateInitialLimits m omega u cur lim' = .ok l' ∧
      ∀ k ∈ imOdeNames, lookup l k = lookup l' k := by
  have hkey : ∀ (x y : ℝ), ∀ k ∈ imOdeNames,
      lookup (dictUpdate (dictUpdate lim m.nominal) [("psi_ralpha", x), ("psi_rbeta", y)]) k =
      lookup (dictUpdate (dictUpdate lim' m.nominal) [("psi_ralpha", x), ("psi_rbeta", y)]) k := by
    intro x y k hk
    rw [Limits.lookup_update, Limits.lookup_update, Limits.lookup_update, Limits.lookup_update]
    simp only [imOdeNames, List.mem_cons, List.not_mem_nil, or_false] at hk
    rcases hk with rfl | rfl | rfl | rfl | rfl
    · rw [r.h_ia]; rfl
    · rw [r.h_ib]; rfl
    · simp [lookup]
    · simp [lookup]
    · rw [r.h_eps]; rfl
  unfold updateInitialLimits
  have hu := r.h_urq
  cases hd : m.dfim with
  | true =>
    simp only [hd, if_true] at hu
    simp only [get_of r.h_uq, get_of hu, bind, Except.bind, if_true]
    generalize fluxLimit m omega _ r.uq r.urq cur = z
    cases z with
    | error e => exact Or.inl ⟨e, rfl, rfl⟩
    | ok v => exact Or.inr ⟨_, _, rfl, rfl, hkey _ _⟩
  | false =>
    simp only [get_of r.h_uq, bind, Except.bind, Bool.false_eq_true, if_false]
    generalize Except.map _ (fluxLimit m omega _ r.uq 0 cur) = z
    cases z with
    | error e => exact Or.inl ⟨e, rfl, rfl⟩
    | ok v => exact Or.inr ⟨_, _, rfl, rfl, hkey _ _⟩

/-- Violated: the argument `initial_limits` ("limits for of the initial state-value") has no effect on induction motors, whatever the
initialiser is. -/
theorem c120_initial_limits_violated (c : Cfg ℝ) (m : ImAttr) (r : Ratings m) (rvs : Rvs ℝ) (pool : ℕ) (early arg arg' : Dict ℝ)
    (hs : ∀ k ∈ (c.states.getD []).map Prod.fst, k ∈ imOdeNames) (hd : c.defaults = imDefaults) (days : List Morning) :
    imResets c m rvs pool days (imMade c early arg) = imResets c m rvs pool days (imMade c early arg') := by
  have hdk : ∀ k ∈ c.defaults.map Prod.fst, k ∈ imOdeNames := by rw [hd]; intro k hk; exact hk
  have key : ∀ (ds : List Morning) (cur lim lim' : Dict ℝ), (∀ k ∈ cur.map Prod.fst, k ∈ imOdeNames) →
      imResets c m rvs pool ds (cur, lim) = imResets c m rvs pool ds (cur, lim') := by
    intro ds
    induction ds with
    | nil => intros; rfl
    | cons d ds ih =>
      intro cur lim lim' hcur
      have hstep : ∃ cur' l l' x, (∀ k ∈ cur'.map Prod.fst, k ∈ imOdeNames) ∧
          imReset c m rvs pool d.omega d.u d.draws (cur, lim) = ((cur', l), x) ∧
          imReset c m rvs pool d.omega d.u d.draws (cur, lim') = ((cur', l'), x) := by
        unfold imReset
        by_cases he : (c.states.getD []).isEmpty = true
        · rw [if_pos he, if_pos he]; exact ⟨_, _, _, _, hcur, rfl, rfl⟩
        · rw [if_neg he, if_neg he]
          simp only
          rcases limits_forget m r d.omega d.u cur lim lim' with ⟨e, h1, h2⟩ | ⟨l, l', h1, h2, h3⟩
          · rw [h1, h2]; exact ⟨_, _, _, _, hcur, rfl, rfl⟩
          · rw [h1, h2]
            have hm : ∀ k ∈ (dictUpdate (dictUpdate cur c.defaults) (c.states.getD [])).map Prod.fst, k ∈ imOdeNames := by
              intro k hk
              rw [keys_update, keys_update] at hk
              rcases hk with h | h | h
              exacts [hs k h, hdk k h, hcur k h]
            have hb : inductionBounds l c.interval ((dictUpdate (dictUpdate cur c.defaults) (c.states.getD [])).map Prod.fst) =
                inductionBounds l' c.interval ((dictUpdate (dictUpdate cur c.defaults) (c.states.getD [])).map Prod.fst) := by
              unfold inductionBounds
              rw [mapM_congr_get l l' _ (fun k hk => h3 k (hm k hk))]
            have hi : motorInitialize c (inductionBounds l c.interval) rvs pool d.draws cur =
                motorInitialize c (inductionBounds l' c.interval) rvs pool d.draws cur := by
              unfold motorInitialize
              simp only [hb]
            simp only [hi]
            cases hmi : motorInitialize c (inductionBounds l' c.interval) rvs pool d.draws cur with
            | error e => exact ⟨_, _, _, _, hm, rfl, rfl⟩
            | ok cur' =>
              refine ⟨_, _, _, _, ?_, rfl, rfl⟩
              unfold motorInitialize at hmi
              obtain ⟨b, _, hmi⟩ := bind_ok hmi
              obtain ⟨vals, _, hmi⟩ := bind_ok hmi
              simp only [Except.ok.injEq] at hmi
              rw [← hmi]
              intro k hk
              unfold writeBack at hk
              rw [keys_update] at hk
              rcases hk with h | h
              · exact hm k ((zip_sublist _ _).subset h)
              · exact hm k h
      obtain ⟨cur', l, l', x, hk, e1, e2⟩ := hstep
      rw [imResets, imResets, e1, e2]
      simp only
      rw [ih cur' l l' hk]
  refine key days _ _ _ ?_
  intro k hk
  unfold motorInitial at hk
  rw [keys_update] at hk
  rcases hk with h | h
  · exact hs k h
  · simp at h

/-- The configuration of a motor that shall start at a given angle. -/
noncomputable def angleCfg (e : ℝ) : Cfg ℝ := ⟨imDefaults, some [("epsilon", e)], none, none, none, none⟩

/-- the dictionary after the defaults have been filled in -/
noncomputable def filledStart (e : ℝ) : Dict ℝ :=
  [("epsilon", e), ("i_salpha", 0), ("i_sbeta", 0), ("psi_ralpha", 0), ("psi_rbeta", 0)]

theorem angle_reset (m : ImAttr) (r : Ratings m) (e : ℝ) (he : |e| ≤ r.eps) (rvs : Rvs ℝ) (pool : ℕ) (omega u : ℝ) (draws : List ℝ)
    (cur lim : Dict ℝ) (x y : ℝ) (hc : cur = [("epsilon", e)] ∨ cur = filledStart e)
    (hf : fluxLimit m omega (fieldAngle u) r.uq r.urq cur = .ok ![x, y]) :
    ∃ lim', imReset (angleCfg e) m rvs pool omega u draws (cur, lim) = ((filledStart e, lim'), .ok [e, 0, 0, 0, 0]) := by
  obtain ⟨lim', h1, -, h2⟩ := limits_of_flux m r omega u cur lim x y hf
  refine ⟨lim', ?_⟩
  have hne : ¬ ((angleCfg e).states.getD []).isEmpty = true := by simp [angleCfg]
  have hs' : (angleCfg e).states.getD [] = [("epsilon", e)] := rfl
  have hd : (angleCfg e).defaults = imDefaults := rfl
  have hi : (angleCfg e).interval = none := rfl
  have hm : dictUpdate (dictUpdate cur imDefaults) [("epsilon", e)] = filledStart e := by
    rcases hc with rfl | rfl <;> simp [filledStart, imDefaults, dictUpdate, dictSet]
  have hk : (filledStart e).map Prod.fst = ["epsilon", "i_salpha", "i_sbeta", "psi_ralpha", "psi_rbeta"] := rfl
  have hv : (filledStart e).map Prod.snd = [e, 0, 0, 0, 0] := rfl
  have b1 := ball_five ![-|r.eps|, -|r.ia|, -|r.ib|, -|x|, -|y|] ![e, 0, 0, 0, 0]
  have b2 := ball_five ![e, 0, 0, 0, 0] ![|r.eps|, |r.ia|, |r.ib|, |x|, |y|]
  simp only [Matrix.cons_val] at b1 b2
  have he' := abs_le.1 (he.trans (le_abs_self _))
  have t1 : ∀ i, (![-|r.eps|, -|r.ia|, -|r.ib|, -|x|, -|y|] : Fin 5 → ℝ) i ≤ (![e, 0, 0, 0, 0] : Fin 5 → ℝ) i := by
    simp [Fin.forall_fin_succ, he'.1]
  have t2 : ∀ i, (![e, 0, 0, 0, 0] : Fin 5 → ℝ) i ≤ (![|r.eps|, |r.ia|, |r.ib|, |x|, |y|] : Fin 5 → ℝ) i := by
    simp [Fin.forall_fin_succ, he'.2]
  have hdr : drawValues (angleCfg e) rvs pool draws [-|r.eps|, -|r.ia|, -|r.ib|, -|x|, -|y|] [|r.eps|, |r.ia|, |r.ib|, |x|, |y|]
      (filledStart e) = .ok [e, 0, 0, 0, 0] := by
    simp only [drawValues, angleCfg, hv, b1, b2, bind, Except.bind, decide_eq_true t1, decide_eq_true t2, Bool.and_self, if_true]
  unfold imReset
  rw [if_neg hne]
  simp only [h1]
  unfold motorInitialize
  simp only [hs', hd, hm, hi, hk, h2, bind, Except.bind, hdr]
  have hw : writeBack (filledStart e) [e, 0, 0, 0, 0] = filledStart e := by
    simp [filledStart, writeBack, dictUpdate, dictSet]
  rw [hw]; rfl

/-- Violated: an initialiser that leaves out the currents, which have default values, makes every reset of a turning motor raise
`KeyError`; one reset at standstill repairs the motor for good.  Here for an initial angle only. -/
theorem c120_incomplete_violated (m : ImAttr) (r : Ratings m) (e : ℝ) (he : |e| ≤ r.eps) (rvs : Rvs ℝ) (pool : ℕ) (early arg : Dict ℝ)
    (days : List Morning) (hd : ∀ d ∈ days, d.omega ≠ 0) (days' : List Morning) (first : Morning) (hf : first.omega = 0) :
    imResets (angleCfg e) m rvs pool (days ++ first :: days') (imMade (angleCfg e) early arg) =
      days.map (fun _ => .error .key) ++ .ok [e, 0, 0, 0, 0] :: days'.map (fun _ => .ok [e, 0, 0, 0, 0]) := by
  have hmade : imMade (angleCfg e) early arg = ([("epsilon", e)], limitsMade early arg) := by
    simp [imMade, motorInitial, angleCfg, dictUpdate, dictSet]
  rw [hmade]
  have later : ∀ (ds : List Morning) (lim : Dict ℝ),
      imResets (angleCfg e) m rvs pool ds (filledStart e, lim) = ds.map (fun _ => .ok [e, 0, 0, 0, 0]) := by
    intro ds
    induction ds with
    | nil => intro lim; rfl
    | cons d ds ih =>
      intro lim
      obtain ⟨lim', h⟩ := angle_reset m r e he rvs pool d.omega d.u d.draws (filledStart e) lim _ _ (Or.inr rfl)
        (flux_eq m r d.omega (fieldAngle d.u) (filledStart e) 0 0 (by simp [filledStart, lookup]) (by simp [filledStart, lookup]))
      rw [imResets, h, List.map_cons, ih]
  have before : ∀ d : Morning, d.omega ≠ 0 → ∀ lim, imReset (angleCfg e) m rvs pool d.omega d.u d.draws ([("epsilon", e)], lim) =
      (([("epsilon", e)], lim), .error .key) := by
    intro d hw lim
    have hne : ¬ ((angleCfg e).states.getD []).isEmpty = true := by simp [angleCfg]
    have hg : Init.get ([("epsilon", e)] : Dict ℝ) "i_salpha" = .error .key := by simp [Init.get, lookup]
    have hfl : ∀ eps uq urq, fluxLimit m d.omega eps uq urq [("epsilon", e)] = .error .key := by
      intro eps uq urq
      unfold fluxLimit
      simp only [hw, if_false, hg, bind, Except.bind]
    have hu : updateInitialLimits m d.omega d.u [("epsilon", e)] lim = .error .key := by
      unfold updateInitialLimits
      have hu := r.h_urq
      cases hd : m.dfim with
      | true =>
        simp only [hd, if_true] at hu
        simp only [get_of r.h_uq, get_of hu, hfl, bind, Except.bind, if_true]
      | false =>
        simp only [get_of r.h_uq, hfl, bind, Except.bind, Except.map, Bool.false_eq_true, if_false]
    unfold imReset
    rw [if_neg hne]
    simp only [hu]
  generalize limitsMade early arg = lim
  induction days with
  | nil =>
    obtain ⟨lim', h⟩ := angle_reset m r e he rvs pool first.omega first.u first.draws [("epsilon", e)] lim _ _ (Or.inl rfl)
      (by rw [hf]; exact flux_standstill m r (fieldAngle first.u) _ 0 0)
    rw [List.nil_append, imResets, h, later]; rfl
  | cons d ds ih =>
    rw [List.cons_append, imResets, before d (hd d (by simp)), ih (fun d hd' => hd d (by simp [hd']))]
    rfl

/-! ### The SCIM with its default parameters -/

/-- squirrel_cage_induction_motor.py 96–107: the default parameters, and nominal values after the missing ones have been filled in -/
noncomputable def scimAttr : ImAttr where
  mp := ⟨2, 14375 / 100000, 587 / 100000, 587 / 100000, 29338 / 10000, 1355 / 1000⟩
  nominal := [("omega", 100 * Real.pi), ("i_salpha", 39 / 10), ("i_sbeta", 39 / 10), ("i_sd", 39 / 10), ("u_sq", 280), ("epsilon", Real.pi)]
  dfim := false

noncomputable def scimRatings : Ratings scimAttr where
  ia := 39 / 10
  ib := 39 / 10
  eps := Real.pi
  isd := 39 / 10
  uq := 280
  urq := 0
  h_ia := by simp [scimAttr, lookup]
  h_ib := by simp [scimAttr, lookup]
  h_eps := by simp [scimAttr, lookup]
  h_isd := by simp [scimAttr, lookup]
  h_uq := by simp [scimAttr, lookup]
  h_urq := by simp [scimAttr]

/-- A magnetised motor at standstill: less than half of the nominal flux along both axes. -/
example (rvs : Rvs ℝ) (draws : List ℝ) : ∃ u u',
    imResets (constantCfg 1 1 (1 / 4) (1 / 4) 0) scimAttr rvs 0 [⟨0, u, draws⟩] (imMade (constantCfg 1 1 (1 / 4) (1 / 4) 0) [] []) =
      [.ok [1, 1, 1 / 4, 1 / 4, 0]] ∧
    imResets (constantCfg 1 1 (1 / 4) (1 / 4) 0) scimAttr rvs 0 [⟨0, u', draws⟩] (imMade (constantCfg 1 1 (1 / 4) (1 / 4) 0) [] []) =
      [.error .generic] := by
  have hm : √((1 / 4 : ℝ) ^ 2 + (1 / 4) ^ 2) ≤ scimAttr.mp.lm * scimRatings.isd := by
    rw [Real.sqrt_le_left (by norm_num [scimAttr, scimRatings])]
    norm_num [scimAttr, scimRatings]
  obtain ⟨u, u', -, -, -, -, h1, h2⟩ := c120_chance_violated scimAttr scimRatings 1 1 (1 / 4) (1 / 4) 0
    (by norm_num [scimRatings]) (by norm_num [scimRatings]) (by simp [scimRatings, Real.pi_pos.le]) (by norm_num) hm rvs 0 [] [] [] draws
  exact ⟨u, u', by simpa [imResets] using h1, by simpa [imResets] using h2⟩

/-- All currents within the nominal range, all positive speeds up to 1000 1/s: no flux is accepted. -/
example (rvs : Rvs ℝ) (a b f g e : ℝ) (ha : |a| ≤ 39 / 10) (hb : |b| ≤ 39 / 10) (hfg : (f, g) ≠ (0, 0)) (days : List Morning)
    (hd : ∀ d ∈ days, 0 < d.omega ∧ d.omega ≤ 1000) (x : Except Err (List ℝ))
    (hx : x ∈ imResets (constantCfg a b f g e) scimAttr rvs 0 days (imMade (constantCfg a b f g e) [] [])) : x = .error .generic := by
  refine c120_forward_violated scimAttr scimRatings a b f g e hfg (by norm_num [scimAttr]) (by norm_num [scimAttr])
    (by norm_num [scimAttr, ImParams.lr]) (by norm_num [scimAttr, ImParams.lr, ImParams.ls, ImParams.sigma]) (by norm_num [scimAttr])
    (by norm_num [scimAttr]) (by norm_num [scimRatings]) rvs 0 [] [] days ?_ x hx
  intro d h
  obtain ⟨h1, h2⟩ := hd d h
  refine ⟨h1, ?_⟩
  have hab : |a| + |b| ≤ 78 / 10 := by linarith
  have hc : scimAttr.mp.p * d.omega * (scimAttr.mp.sigma * scimAttr.mp.ls) + scimAttr.mp.rs +
      scimAttr.mp.rr * (scimAttr.mp.lm / scimAttr.mp.lr) ^ 2 ≤ 30 := by
    have e : scimAttr.mp.sigma * scimAttr.mp.ls ≤ 12 / 1000 := by norm_num [scimAttr, ImParams.lr, ImParams.ls, ImParams.sigma]
    have e0 : 0 ≤ scimAttr.mp.sigma * scimAttr.mp.ls := by norm_num [scimAttr, ImParams.lr, ImParams.ls, ImParams.sigma]
    have e2 : scimAttr.mp.rs + scimAttr.mp.rr * (scimAttr.mp.lm / scimAttr.mp.lr) ^ 2 ≤ 5 := by
      norm_num [scimAttr, ImParams.lr]
    have e3 : scimAttr.mp.p * d.omega * (scimAttr.mp.sigma * scimAttr.mp.ls) ≤ 2 * 1000 * (12 / 1000) :=
      mul_le_mul (mul_le_mul (by norm_num [scimAttr]) h2 h1.le (by norm_num)) e e0 (by norm_num)
    linarith
  have hu : scimRatings.uq = 280 := rfl
  rw [hu]
  have := mul_le_mul hc hab (by positivity) (by norm_num : (0 : ℝ) ≤ 30)
  linarith

/-- Random starts at negative speed, at standstill, and an initial angle only. -/
example (rvs : Rvs ℝ) : ∃ d d' s : List ℝ, ∃ v v',
    (imResets uniformCfg scimAttr rvs 0 [⟨-100, 1 / 2, d⟩, ⟨-100, 1 / 2, s⟩] (imMade uniformCfg [] [])).getLast? = some (.ok v) ∧
    (imResets uniformCfg scimAttr rvs 0 [⟨-100, 1 / 2, d'⟩, ⟨-100, 1 / 2, s⟩] (imMade uniformCfg [] [])).getLast? = some (.ok v') ∧
    v ≠ v' := by
  obtain ⟨d, d', s, -, v, v', h⟩ := c120_memory_violated scimAttr scimRatings (by norm_num [scimAttr]) (by norm_num [scimAttr])
    (by norm_num [scimAttr, ImParams.lr]) (by norm_num [scimRatings]) (by norm_num [scimRatings]) (by norm_num [scimRatings]) (-100)
    (by norm_num) rvs 0 [] []
  exact ⟨d, d', s, v, v', h⟩

example (rvs : Rvs ℝ) : imResets (angleCfg 1) scimAttr rvs 0 [⟨10, 1 / 3, []⟩, ⟨0, 1 / 3, []⟩, ⟨10, 1 / 3, []⟩] (imMade (angleCfg 1) [] []) =
    [.error .key, .ok [1, 0, 0, 0, 0], .ok [1, 0, 0, 0, 0]] :=
  c120_incomplete_violated scimAttr scimRatings 1
    (by rw [abs_one]; change (1 : ℝ) ≤ Real.pi; linarith [Real.two_le_pi]) rvs 0 [] [] [⟨10, 1 / 3, []⟩]
    (by simp) [⟨10, 1 / 3, []⟩] ⟨0, 1 / 3, []⟩ rfl

end GEM.Props
