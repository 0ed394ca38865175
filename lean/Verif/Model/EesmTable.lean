import Verif.Model.OperatingPoint

/-!
# Tables of the externally excited synchronous motor  (`gem_controllers/stages/operation_point_selection/eesm_ops.py`)

`_calculate_luts` up to the interpolation, and the selection with interpolated tables.  Not modelled: `scipy.interpolate`, the
interpolating functions and tables are parameters; `np.complex` (line 184), which numpy has removed: with a present numpy `tune`
raises for this motor.  `root` is `np.real(np.roots(poly)[-1])`, `none` when `np.roots` returns no root and `[-1]` raises.
-/

namespace GEM.Ops

open GEM GEM.Motor

/-- A row of `best_params` or `best_params_psi` (eesm_ops.py 157). -/
structure ERow where
  t : ℝ
  psi : ℝ
  iD : ℝ
  iQ : ℝ
  iE : ℝ

/-- `self.loss` (eesm_ops.py 94) -/
def eLoss (mp : EesmParams ℝ) (r : ERow) : ℝ := |r.iD| * mp.rs + |r.iQ| * mp.rs + |r.iE| * mp.re

/-- does `solve_analytical` raise (eesm_ops.py 125–128)? -/
def eRaises (mp : EesmParams ℝ) (root : List ℝ → Option ℝ) (t psi iE : ℝ) : Prop :=
  ¬ (t = 0 ∧ iE = 0) ∧ root (eesmPoly mp iE psi t) = none

/-- the body of the innermost loop (eesm_ops.py 154–161).  With the denominator 0 the quadrature current is `inf` or `nan` and the
comparison is false. -/
noncomputable def eCandidate (mp : EesmParams ℝ) (root : List ℝ → Option ℝ) (qLim t psi iE : ℝ) : Option ERow :=
  if t = 0 ∧ iE = 0 then if √(0 ^ 2 + 0 ^ 2) < qLim then some ⟨t, psi, 0, 0, iE⟩ else none
  else
    match root (eesmPoly mp iE psi t) with
    | none => none
    | some iD =>
      if 3 * mp.p * (mp.lm * iE + (mp.ld - mp.lq) * iD) = 0 then none
      else
        let s := eesmSolve mp t iE iD
        if √(s.1 ^ 2 + s.2 ^ 2) < qLim then some ⟨t, psi, s.1, s.2, iE⟩ else none

/-- the limits and sizes (eesm_ops.py 69–75) -/
structure ECfg where
  iELim : ℝ
  qLim : ℝ
  tLim : ℝ
  tCount : ℕ := 50
  psiCount : ℕ := 100
  iECount : ℕ := 150

/-- `psi_max` (eesm_ops.py 142) -/
def ECfg.psiMax (c : ECfg) (mp : EesmParams ℝ) : ℝ := mp.lm * c.iELim + mp.ld * c.qLim

/-- the three grids (eesm_ops.py 143, 150, 153) -/
noncomputable def ECfg.ts (c : ECfg) : List ℝ := linspace 0 c.tLim c.tCount
noncomputable def ECfg.psis (c : ECfg) (mp : EesmParams ℝ) : List ℝ := linspace 0 (c.psiMax mp) c.psiCount
noncomputable def ECfg.iEs (c : ECfg) : List ℝ := linspace 0 c.iELim c.iECount

/-- `parameter_psi` (eesm_ops.py 151–161) -/
noncomputable def eCandidates (mp : EesmParams ℝ) (root : List ℝ → Option ℝ) (c : ECfg) (t psi : ℝ) : List ERow :=
  c.iEs.filterMap (eCandidate mp root c.qLim t psi)

/-- the row with the smallest loss, the first of several (eesm_ops.py 163–168) -/
noncomputable def eBest (mp : EesmParams ℝ) (l : List ERow) : Option ERow := (firstMin (eLoss mp) l).map Prod.snd

/-- The results of `_calculate_luts` before they are interpolated: `best_params`, `best_params_psi`, the array `t_max_psi` (before
the factor 0.99), `t_max`. -/
structure ETables where
  best : List ERow
  bestPsi : List ERow
  tMaxPsi : List ℝ
  tMax : ℝ

open Classical in
/-- `_calculate_luts` (eesm_ops.py 136–177).  The loop overwrites `t_max_psi[idx]` for growing `t`: what remains is the last `t`
with a candidate.  It raises when one call of `solve_analytical` does, or when there is no row (`best_params[:, 0]`). -/
noncomputable def eTables (mp : EesmParams ℝ) (root : List ℝ → Option ℝ) (c : ECfg) : Except Err ETables :=
  if ∃ t ∈ c.ts, ∃ psi ∈ c.psis mp, ∃ iE ∈ c.iEs, eRaises mp root t psi iE then .error .index
  else
    let best := c.ts.filterMap fun t => eBest mp ((c.psis mp).flatMap fun psi => eCandidates mp root c t psi)
    match best.map ERow.t with
    | [] => .error .index
    | t0 :: l =>
      .ok ⟨best, c.ts.flatMap fun t => (c.psis mp).filterMap fun psi => eBest mp (eCandidates mp root c t psi),
        (c.psis mp).map fun psi => ((c.ts.filter fun t => !(eCandidates mp root c t psi).isEmpty).getLast?).getD 0,
        l.foldl max t0⟩

/-- What the selection uses: `t_max`, `psi_max`, the interpolations `psi_opt` and `t_max_psi`, the tables on the grid. -/
structure ESelect where
  tMax : ℝ
  psiMax : ℝ
  psiOpt : ℝ → ℝ
  tMaxPsi : ℝ → ℝ
  table : ℤ → ℤ → ℝ × ℝ × ℝ

/-- the torque and the flux whose entry is read (eesm_ops.py 249–255); `psiMod` is the answer of the modulation controller -/
noncomputable def ESelect.point (c : ESelect) (psiMod torque : ℝ) : ℝ × ℝ :=
  let t := |clip torque (-c.tMax) c.tMax|
  (clip t 0 (c.tMaxPsi (c.psiOpt t)), clip (c.psiOpt t) 0 psiMod)

/-- `_select_operating_point` (eesm_ops.py 246–264) with `_get_t_idx` and `_get_psi_idx` (lines 217–218, 231–232) -/
noncomputable def ESelect.select (c : ESelect) (psiMod torque : ℝ) : ℝ × ℝ × ℝ :=
  let q := c.point psiMod torque
  let v := c.table (idxAxis 0 c.tMax 200 q.1) (idxAxis 0 c.psiMax 200 q.2)
  (v.1, sign torque * v.2.1, v.2.2)

end GEM.Ops
