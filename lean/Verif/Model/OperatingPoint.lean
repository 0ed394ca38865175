import Mathlib.Analysis.SpecialFunctions.Pow.Real
import Verif.Model.Control

/-!
# Operation point selection  (`src/gem_controllers/stages/operation_point_selection`)

Exact arithmetic; `nan` of `np.sqrt` is `none`.  A reference array of one torque is a number.  The size of the tables and the
grids of sampled currents are parameters, `linspace` gives those of the code.  Not modelled: the interpolated tables
(`torque_control = 'interpolate'`, all of the EESM; they need `np.complex`, which numpy has removed), `np.roots`: the theorems hold for every number it may return or for every real root of the polynomial.
-/

namespace GEM.Ops

open GEM GEM.Motor

/-- `np.linspace(a, b, n)`, as list -/
noncomputable def linspace (a b : ℝ) (n : ℕ) : List ℝ :=
  (List.range n).map fun k : ℕ => a + k * ((b - a) / (n - 1))

/-- `round` of python: to the nearest integer, halves to the even one -/
noncomputable def pyRound (x : ℝ) : ℤ :=
  if x - ⌊x⌋ < 1 / 2 then ⌊x⌋ else if 1 / 2 < x - ⌊x⌋ then ⌊x⌋ + 1
  else if ⌊x⌋ % 2 = 0 then ⌊x⌋ else ⌊x⌋ + 1

/-- `np.sign` -/
noncomputable def sign (x : ℝ) : ℝ := Ctl.sgn x

/-- the element with the first smallest value: `l[np.argmin(f(l))]`, also `l[np.where(v == np.amin(v))[0][0]]`, with its
position -/
noncomputable def firstMin {α : Type} (f : α → ℝ) : List α → Option (ℕ × α)
  | [] => none
  | a :: l =>
    match firstMin f l with
    | none => some (0, a)
    | some (k, b) => if f b < f a then some (k + 1, b) else some (0, a)

/-! ## Direct current motors -/

/-- `SeriesDcOperationPointSelection._select_operating_point` (series_dc_ops.py 25–36) -/
noncomputable def series (l torque : ℝ) : Option ℝ := if 0 ≤ torque / l then some √(torque / l) else none

/-- `ShuntDcOperationPointSelection._select_operating_point` (shunt_dc_ops.py 66–90) -/
noncomputable def shunt (l iaLimit ieLimit ie torque : ℝ) : ℝ :=
  if ieLimit < ie then -iaLimit else if ie < -ieLimit then iaLimit
  else torque / l / (if 0 ≤ ie ∧ ie < 1 / 10000 then 1 / 10000 else if ie < 0 ∧ -(1 / 10000) < ie then -(1 / 10000) else ie)

/-- `tune` (shunt_dc_ops.py 92–107): both limits with the safety margin -/
noncomputable def shuntTuned (mp : DcParams ℝ) (iaLimit ieLimit margin ie torque : ℝ) : ℝ :=
  shunt mp.lePrime (iaLimit * (1 - margin)) (ieLimit * (1 - margin)) ie torque

/-- `ExtExDcOperationPointSelection._select_operating_point` with the default policy (extex_dc_ttc.py 59–79, 92–99):
references of the armature and of the exciting current -/
noncomputable def extEx (mp : DcParams ℝ) (ie torque : ℝ) : ℝ × ℝ :=
  (torque / mp.lePrime / max ie (1 / 10000), √(√mp.ra * |torque| / (√mp.re * mp.lePrime)))

/-- `PermExDcOperationPointSelection._select_operating_point` (permex_dc_ops.py 55–70): `_resistance` is the empty array of
the constructor (line 52), which `tune` (lines 76–93) does not set, so `_max_current_per_speed` is empty; the comparison
inside `min` or `max` is an empty array, too, which counts as false (numpy before 2.2), and the first argument is returned. -/
noncomputable def permEx (psi torque : ℝ) : ℝ := torque / psi

/-! ## Modulation controller -/

/-- Attributes set by `tune` (foc_operation_point_selection.py 57–92 and the subclasses). -/
structure ModPar where
  p : ℝ
  tau : ℝ
  uDc : ℝ
  aMax : ℝ
  k : ℝ
  iGain : ℝ
  psiLow : ℝ
  psiHigh : ℝ
  resetValue : ℝ

/-- `integrated` is `None` after the first `tune`, which copies `integrated_reset` before the subclass sets it (line 92). -/
structure ModSt where
  integrated : Option ℝ
  limited : Bool

/-- the largest flux at a speed (lines 122–125) -/
noncomputable def psiAtSpeed (c : ModPar) (omega : ℝ) : ℝ := c.uDc / (√3 * max |omega| (1 / 10000) * c.p)

/-- the modulation (line 115) -/
noncomputable def modulationOf (c : ModPar) (usd usq : ℝ) : ℝ := 2 * √(usd ^ 2 + usq ^ 2) / c.uDc

/-- `modulation_control` (lines 107–147) -/
noncomputable def modulation (c : ModPar) (st : ModSt) (omega usd usq : ℝ) : Call ModSt ℝ :=
  let a := modulationOf c usd usq
  let st1 : ModSt := if 11 / 10 * c.aMax < a then { st with integrated := some c.resetValue } else st
  let aDelta := c.k * c.aMax - a
  let w := max |omega| (1 / 10000)
  let gain := c.iGain / (2 * w * c.p / c.uDc)
  match st1.integrated with
  | none => (st1, .error .type)
  | some x =>
    let d := gain * (aDelta * c.tau + x)
    if c.psiLow ≤ d ∧ d ≤ c.psiHigh then
      (⟨some ((if st1.limited then c.resetValue else x) + aDelta * c.tau), false⟩, .ok (psiAtSpeed c omega + d))
    else (⟨some x, true⟩, .ok (psiAtSpeed c omega + clip d c.psiLow c.psiHigh))

/-- `reset` (lines 149–151) -/
def modReset (c : ModPar) (st : ModSt) : ModSt := { st with integrated := some c.resetValue }

/-! ## Synchronous motors -/

/-- `poly[0] x^4 + ... + poly[4]`, what `np.roots` takes the coefficients to mean -/
def polyVal (c : List ℝ) (x : ℝ) : ℝ := c.foldl (fun acc a => acc * x + a) 0

/-- the coefficients of `PMSMOperationPointSelection.solve_analytical` (pmsm_ops.py 268–277) -/
noncomputable def pmsmPoly (mp : SyncParams ℝ) (torque psi : ℝ) : List ℝ :=
  [mp.ld ^ 2 * (mp.ld - mp.lq) ^ 2,
   2 * mp.ld ^ 2 * (mp.ld - mp.lq) * mp.psiP + 2 * mp.ld * mp.psiP * (mp.ld - mp.lq) ^ 2,
   mp.ld ^ 2 * mp.psiP ^ 2 + 4 * mp.ld * mp.psiP ^ 2 * (mp.ld - mp.lq) + (mp.psiP ^ 2 - psi ^ 2) * (mp.ld - mp.lq) ^ 2,
   2 * mp.lq * mp.psiP ^ 3 + 2 * (mp.psiP ^ 2 - psi ^ 2) * mp.psiP * (mp.ld - mp.lq),
   (mp.psiP ^ 2 - psi ^ 2) * mp.psiP ^ 2 + (mp.lq * 2 * torque / (3 * mp.p)) ^ 2]

/-- `solve_analytical` (pmsm_ops.py 279–282); `iD` is the number taken from `np.roots` -/
noncomputable def pmsmSolve (mp : SyncParams ℝ) (torque iD : ℝ) : ℝ × ℝ :=
  (iD, 2 * torque / (3 * mp.p * (mp.psiP + (mp.ld - mp.lq) * iD)))

/-- the coefficients of the EESM (eesm_ops.py 96–106) -/
noncomputable def eesmPoly (mp : EesmParams ℝ) (iE psi torque : ℝ) : List ℝ :=
  [mp.ld ^ 2 * (mp.ld - mp.lq) ^ 2,
   2 * mp.ld ^ 2 * (mp.ld - mp.lq) * mp.lm * iE + 2 * mp.ld * mp.lm * iE * (mp.ld - mp.lq) ^ 2,
   mp.ld ^ 2 * (mp.lm * iE) ^ 2 + 4 * mp.ld * (mp.lm * iE) ^ 2 * (mp.ld - mp.lq)
     + ((mp.lm * iE) ^ 2 - psi ^ 2) * (mp.ld - mp.lq) ^ 2,
   2 * mp.lq * (mp.lm * iE) ^ 3 + 2 * ((mp.lm * iE) ^ 2 - psi ^ 2) * mp.lm * iE * (mp.ld - mp.lq),
   ((mp.lm * iE) ^ 2 - psi ^ 2) * (mp.lm * iE) ^ 2 + (mp.lq * torque / (3 * mp.p)) ^ 2]

/-- `solve_analytical` (eesm_ops.py 110–130) -/
noncomputable def eesmSolve (mp : EesmParams ℝ) (torque iE iD : ℝ) : ℝ × ℝ :=
  if torque = 0 ∧ iE = 0 then (0, 0)
  else (iD, 2 * torque / (3 * mp.p * (mp.lm * iE + (mp.ld - mp.lq) * iD)))

/-- A row of the MTPC table: torque, currents and flux. -/
structure Row where
  t : ℝ
  iD : ℝ
  iQ : ℝ
  psi : ℝ

/-- the length of the stator flux (pmsm_ops.py 85) -/
noncomputable def fluxOf (mp : SyncParams ℝ) (iD iQ : ℝ) : ℝ := √((mp.psiP + mp.ld * iD) ^ 2 + (mp.lq * iQ) ^ 2)

/-- the sampled pairs for a torque with different inductances (pmsm_ops.py 46–50, 62–73): direct currents of the grid, or,
without a magnet, quadrature currents of the grid -/
noncomputable def mtpcPairs (mp : SyncParams ℝ) (grid : List ℝ) (t : ℝ) : List (ℝ × ℝ) :=
  if mp.psiP = 0 then grid.map fun y => (-|t / (3 / 2 * mp.p * (mp.ld - mp.lq) * y)|, y)
  else grid.map fun x => (x, t / (x * (mp.ld - mp.lq) + mp.psiP) / (3 / 2 * mp.p))

/-- a row of `_get_mtpc_lookup_table` (pmsm_ops.py 61–86).  With equal inductances the direct current is 0.  (With equal
inductances and no magnet the code puts the whole grid into the row; this motor has no torque and is left out.) -/
noncomputable def mtpcRow (mp : SyncParams ℝ) (grid : List ℝ) (t : ℝ) : Option Row :=
  if mp.ld = mp.lq then
    if mp.psiP = 0 then none
    else
      let y := t / (0 * (mp.ld - mp.lq) + mp.psiP) / (3 / 2 * mp.p)
      some ⟨t, 0, y, fluxOf mp 0 y⟩
  else
    match firstMin (fun v => v.1 ^ 2 + v.2 ^ 2) (mtpcPairs mp grid t) with
    | none => none
    | some (_, v) =>
      let y := sign ((mp.lq - mp.ld) * t) * |v.2|
      some ⟨t, v.1, y, fluxOf mp v.1 y⟩

/-- a positive row of `_get_mtpf_lookup_table` for a motor without magnet (pmsm_ops.py 109–112): the two currents -/
noncomputable def mtpfReluctance (mp : SyncParams ℝ) (psi : ℝ) : ℝ × ℝ :=
  (-(psi / √(mp.ld ^ 2 + mp.lq ^ 2)), psi / √(mp.ld ^ 2 + mp.lq ^ 2))

/-- the torque (pmsm_ops.py 113, 128) -/
noncomputable def mtpfTorque (mp : SyncParams ℝ) (v : ℝ × ℝ) : ℝ := 3 / 2 * mp.p * (mp.psiP + (mp.ld - mp.lq) * v.1) * v.2

/-- the pairs of currents with a flux for a motor with magnet (pmsm_ops.py 115–127); `grid` is `i_d`, `dLim` and `qLim` are
`i_sd_limit` and `i_sq_limit` -/
noncomputable def mtpfPairs (mp : SyncParams ℝ) (grid : List ℝ) (dLim qLim psi : ℝ) : List (ℝ × ℝ) :=
  ((grid.filter fun x => decide (0 ≤ psi ^ 2 - (mp.psiP + mp.ld * x) ^ 2)).map fun x =>
      (x, √(psi ^ 2 - (mp.psiP + mp.ld * x) ^ 2) / mp.lq)).filter fun v =>
    decide (√((v.2 / qLim) ^ 2 + (v.1 / dLim) ^ 2) ≤ 1)

/-- the variables `t`, `i_d_best`, `i_q_best` after the search for a flux (pmsm_ops.py 109–134): without pairs the old ones -/
noncomputable def mtpfBest (mp : SyncParams ℝ) (grid : List ℝ) (dLim qLim : ℝ) (best : ℝ × ℝ × ℝ) (psi : ℝ) : ℝ × ℝ × ℝ :=
  if mp.psiP = 0 then (mtpfTorque mp (mtpfReluctance mp psi), mtpfReluctance mp psi)
  else
    match firstMin (fun v => -mtpfTorque mp v) (mtpfPairs mp grid dLim qLim psi) with
    | none => best
    | some (_, v) => (mtpfTorque mp v, v)

/-- the loop of `_get_mtpf_lookup_table` over the fluxes (pmsm_ops.py 101–136) -/
noncomputable def mtpfRows (mp : SyncParams ℝ) (grid : List ℝ) (dLim qLim : ℝ) : ℝ × ℝ × ℝ → List ℝ → List Row
  | _, [] => []
  | best, psi :: l =>
    if psi = 0 then ⟨0, -mp.psiP / mp.ld, 0, psi⟩ :: mtpfRows mp grid dLim qLim (0, best.2) l
    else
      let b := mtpfBest mp grid dLim qLim best psi
      if √(b.2.1 ^ 2 + b.2.2 ^ 2) ≤ qLim then ⟨b.1, b.2.1, b.2.2, psi⟩ :: mtpfRows mp grid dLim qLim b l
      else mtpfRows mp grid dLim qLim b l

/-- the first value of `psi_max_mtpf` (pmsm_ops.py 93) -/
noncomputable def mtpfFlux (mp : SyncParams ℝ) (dLim qLim : ℝ) : ℝ := √((mp.psiP + mp.ld * dLim) ^ 2 + (mp.lq * qLim) ^ 2)

/-- `_get_mtpf_lookup_table` (pmsm_ops.py 89–140): `np.rot90` of the four rows of numbers reverses the order of the rows of the
table, the rows of negative torque stand before those of positive torque.  The second value is `psi_max_mtpf`. -/
noncomputable def mtpfTable (mp : SyncParams ℝ) (grid : List ℝ) (dLim qLim : ℝ) (n : ℕ) : List Row × ℝ :=
  let rows := mtpfRows mp grid dLim qLim (0, 0, 0) (linspace 0 (mtpfFlux mp dLim qLim) n)
  ((rows.map fun r => { r with t := -r.t, iQ := -r.iQ }).reverse ++ rows, (rows.map fun r => r.psi).foldl max 0)

/-- `_get_t_idx_mtpc` (pmsm_ops.py 309–313) -/
noncomputable def idxMtpc (maxTorque : ℝ) (n : ℕ) (torque : ℝ) : ℤ :=
  clip (pyRound ((torque + maxTorque) / (2 * maxTorque) * (n - 1))) 0 n

/-- `_get_psi_idx_mtpf` (pmsm_ops.py 303–307) -/
noncomputable def idxMtpf (psiMax : ℝ) (n : ℕ) (psi : ℝ) : ℤ :=
  clip ((n - 1) - pyRound (psi / psiMax * (n - 1))) 0 n

/-- indexing an array; the indices here are never negative -/
def at? {α : Type} (l : List α) (i : ℤ) : Except Err α :=
  match l[i.toNat]? with
  | some a => .ok a
  | none => .error .index

/-- What the stage of a synchronous motor keeps: the tables, their nominal sizes and the largest values. -/
structure Sync where
  mp : SyncParams ℝ
  mtpc : List Row
  mtpf : List Row
  maxTorque : ℝ
  psiMaxMtpf : ℝ
  tCount : ℕ
  psiCount : ℕ

/-- `invert` (pmsm_ops.py 161) -/
noncomputable def invert (mp : SyncParams ℝ) : ℝ := if mp.psiP = 0 ∧ mp.lq < mp.ld then -1 else 1

/-- `_select_operating_point` with `torque_control = 'online'` (pmsm_ops.py 315–368, 284–291); `root torque psi` is the
number taken from `np.roots`, `psiMod` the answer of the modulation controller -/
noncomputable def selectOnline (c : Sync) (root : ℝ → ℝ → ℝ) (psiMod torque : ℝ) : Except Err (ℝ × ℝ) :=
  match at? c.mtpc (idxMtpc c.maxTorque c.tCount torque) with
  | .error e => .error e
  | .ok opt =>
    let psi := min opt.psi psiMod
    match at? c.mtpf (idxMtpf c.psiMaxMtpf c.psiCount psi) with
    | .error e => .error e
    | .ok f =>
      let t := if |f.t| < |torque| then sign torque * |f.t| else torque
      let s := pmsmSolve c.mp t (root t psi)
      let s := if opt.iD < s.1 then (opt.iD, opt.iQ) else s
      let s := if s.1 < f.iD then (f.iD, sign t * |f.iQ|) else s
      .ok (s.1, invert c.mp * s.2)

/-- The tables of `torque_control = 'analytical'` (pmsm_ops.py 214–228): `idq k j` is the entry for the torque number `k` and the
flux number `j` (`i_d_inter`, `i_q_inter`). -/
structure Lut where
  tMin : ℝ
  tMax : ℝ
  psiMin : ℝ
  psiMax : ℝ
  idq : ℤ → ℤ → ℝ × ℝ

/-- an axis of the table -/
noncomputable def axis (a b : ℝ) (n : ℕ) (k : ℤ) : ℝ := a + k * ((b - a) / (n - 1))

/-- the table of `tune` (pmsm_ops.py 218–228); `root torque psi` is the number taken from `np.roots` -/
noncomputable def Lut.analytical (mp : SyncParams ℝ) (root : ℝ → ℝ → ℝ) (tMin tMax psiMin psiMax : ℝ) (nt npsi : ℕ) : Lut :=
  ⟨tMin, tMax, psiMin, psiMax, fun k j =>
    pmsmSolve mp (axis tMin tMax nt k) (root (axis tMin tMax nt k) (axis psiMin psiMax npsi j))⟩

/-- `_get_t_idx` and `_get_psi_idx` (pmsm_ops.py 298–301) -/
noncomputable def idxAxis (a b : ℝ) (n : ℕ) (x : ℝ) : ℤ := pyRound ((clip x a b - a) / (b - a) * (n - 1))

/-- `_select_operating_point` with a table (pmsm_ops.py 315–368) -/
noncomputable def selectTable (c : Sync) (lut : Lut) (psiMod torque : ℝ) : Except Err (ℝ × ℝ) :=
  match at? c.mtpc (idxMtpc c.maxTorque c.tCount torque) with
  | .error e => .error e
  | .ok opt =>
    let psi := min opt.psi psiMod
    match at? c.mtpf (idxMtpf c.psiMaxMtpf c.psiCount psi) with
    | .error e => .error e
    | .ok f =>
      let t := if |f.t| < |torque| then sign torque * |f.t| else torque
      let v := lut.idq (idxAxis lut.tMin lut.tMax c.tCount t) (idxAxis lut.psiMin lut.psiMax c.psiCount psi)
      let s := if v.1 ≤ f.iD then (f.iD, sign t * |f.iQ|)
        else if opt.iD < v.1 then (opt.iD, sign t * |opt.iQ|) else v
      let s := if s.1 < f.iD then (f.iD, sign t * |f.iQ|) else s
      .ok (s.1, invert c.mp * s.2)

/-! ## Squirrel cage induction motor -/

/-- Attributes of `SCIMOperationPointSelection` set by `tune` (scim_ops.py 102–142). -/
structure Scim where
  mp : ImParams ℝ
  iSdLimit : ℝ
  iSqLimit : ℝ
  tMax : ℝ
  psiOpt : List ℝ
  tMaxPsi : List ℝ
  psiMax : ℝ
  tCount : ℕ
  psiCount : ℕ
  mod : ModPar

/-- losses of a pair of currents (scim_ops.py 52–58) -/
noncomputable def scimLosses (mp : ImParams ℝ) (isd isq : ℝ) : ℝ :=
  3 / 2 * (mp.rs * isd ^ 2 + (mp.rs + mp.rr * mp.lm ^ 2 / mp.lr ^ 2) * isq ^ 2)

/-- the quadrature current of a torque (scim_ops.py 51) -/
noncomputable def scimIsq (mp : ImParams ℝ) (t isd : ℝ) : ℝ := t / (3 / 2 * mp.p * mp.lm ^ 2 / mp.lr * isd)

/-- a row of `_psi_opt` (scim_ops.py 45–70); `grid` is `i_sd`.  The position found in `i_sd[1:]` is used in `i_sd`. -/
noncomputable def psiOptRow (mp : ImParams ℝ) (grid : List ℝ) (t : ℝ) : Option Row :=
  if t = 0 then some ⟨t, 0, 0, mp.lm * 0⟩
  else
    match firstMin (fun x => scimLosses mp x (scimIsq mp t x)) grid.tail with
    | none => none
    | some (k, x) => (grid[k]?).map fun isd => ⟨t, isd, scimIsq mp t x, mp.lm * isd⟩

/-- `_get_psi_opt` (scim_ops.py 145–148) -/
noncomputable def idxPsiOpt (tMax : ℝ) (n : ℕ) (torque : ℝ) : ℤ :=
  pyRound ((clip torque (-tMax) tMax - -tMax) / (tMax - -tMax) * (n - 1))

/-- `_get_t_max` (scim_ops.py 150–153) -/
noncomputable def idxTMax (psiMax : ℝ) (n : ℕ) (psi : ℝ) : ℤ := pyRound (clip psi 0 psiMax / psiMax * (n - 1))

/-- the fluxes belonging to the rows of `_t_max` (scim_ops.py 79, 96) -/
noncomputable def tMaxFluxes (psiMax : ℝ) (n : ℕ) : List ℝ := linspace psiMax 0 n ++ (linspace psiMax 0 n).reverse

/-- the two currents (scim_ops.py 183–194) for the wanted torque and the output of the flux controller -/
noncomputable def scimCurrents (c : Scim) (psi torque fluxOut : ℝ) : ℝ × ℝ :=
  let isd := clip fluxOut (-c.iSdLimit) c.iSdLimit
  let isq := clip (torque / max psi (1 / 1000) * 2 / 3 / c.mp.p * c.mp.lr / c.mp.lm) (-c.iSqLimit) c.iSqLimit
  (isd, if c.iSdLimit < √(isq ^ 2 + isd ^ 2) then sign isq * √(c.iSdLimit ^ 2 - isd ^ 2) else isq)

/-- The flux controller, a PI controller (pi_controller.py 106–120): `p_gain`, `i_gain`, `tau` and the integrator, `none`
before the first reset, when `integrate` raises a TypeError (i_controller.py 73, 115). -/
structure Flux where
  pGain : ℝ
  iGain : ℝ
  tau : ℝ
  integrator : Option ℝ

/-- its output (the integrator of the constructor is 0) -/
noncomputable def Flux.out (f : Flux) (psi ref : ℝ) : ℝ := f.pGain * (ref - psi) + f.iGain * f.integrator.getD 0

/-- `integrate` -/
noncomputable def Flux.integrate (f : Flux) (psi ref : ℝ) : Call Flux Unit :=
  match f.integrator with
  | none => (f, .error .type)
  | some x => ({ f with integrator := some (x + (ref - psi) * f.tau) }, .ok ())

/-- `reset` -/
def Flux.reset (f : Flux) : Flux := { f with integrator := some 0 }

/-- `_tune_flux_controller` (pi_controller.py 106–120) called with `a = 4` and `t_n = l_s / r_s` (scim_ops.py 131); the
integrator is kept -/
noncomputable def Flux.tune (mp : ImParams ℝ) (tau : ℝ) (f : Flux) : Flux :=
  ⟨4 * (mp.ls / mp.rs) ^ 2, max (4 * (mp.ls / mp.rs) ^ 2 / tau) 0, tau, f.integrator⟩

/-- `_select_operating_point` (scim_ops.py 155–194) -/
noncomputable def scimSelect (c : Scim) (st : ModSt × Flux) (psi omega usd usq torque : ℝ) : Call (ModSt × Flux) (ℝ × ℝ) :=
  match at? c.psiOpt (idxPsiOpt c.tMax c.tCount torque) with
  | .error e => (st, .error e)
  | .ok opt =>
    let m := modulation c.mod st.1 omega usd usq
    match m.2 with
    | .error e => ((m.1, st.2), .error e)
    | .ok psiMod =>
      let want := min opt psiMod
      match at? c.tMaxPsi (c.psiCount - idxTMax c.psiMax c.psiCount want) with
      | .error e => ((m.1, st.2), .error e)
      | .ok tLim =>
        let t := clip torque (-|tLim|) |tLim|
        let out := st.2.out psi want
        if out = clip out (-c.iSdLimit) c.iSdLimit then
          let f := st.2.integrate psi want
          ((m.1, f.1), f.2.map fun _ => scimCurrents c psi t out)
        else ((m.1, st.2), .ok (scimCurrents c psi t out))

/-- `reset` (scim_ops.py 196–199) -/
def scimReset (c : Scim) (st : ModSt × Flux) : ModSt × Flux := (modReset c.mod st.1, st.2.reset)

/-- A stage of a squirrel cage motor whose flux controller is an object outside of it: `heap ref`.  Every stage made without
the argument `psi_controller` has the object built with the class (scim_ops.py 22), the same `ref`. -/
structure ScimStage where
  c : Scim
  m : ModSt
  ref : ℕ

/-- What can be done to a stage: `tune` (as far as the flux controller is concerned, scim_ops.py 131), `reset`, a call. -/
inductive StageOp
  | tune (tau : ℝ)
  | reset
  | select (psi omega usd usq torque : ℝ)

/-- an operation on a stage, with the answer of a call -/
noncomputable def ScimStage.run (heap : ℕ → Flux) (s : ScimStage) :
    StageOp → (ℕ → Flux) × ScimStage × Option (Except Err (ℝ × ℝ))
  | .tune tau => (Function.update heap s.ref ((heap s.ref).tune s.c.mp tau), s, none)
  | .reset =>
    let r := scimReset s.c (s.m, heap s.ref)
    (Function.update heap s.ref r.2, { s with m := r.1 }, none)
  | .select psi omega usd usq torque =>
    let r := scimSelect s.c (s.m, heap s.ref) psi omega usd usq torque
    (Function.update heap s.ref r.1.2, { s with m := r.1.1 }, some r.2)

end GEM.Ops
