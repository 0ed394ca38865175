import Verif.Model.ClassicFoc
import Verif.Model.OperatingPoint

/-!
# The classic controllers of the examples: conversion of torques to currents

`examples/classic_controllers/controllers/`: `torque_to_current_conversion.py` (synchronous motors),
`induction_motor_torque_to_current_conversion.py` (induction motors).

The code is a copy of the operation point selection of `gem_controllers` with differences in the modulation controller, the limits and the
reset.  Tables, searches and lookups that are the same are those of Model/OperatingPoint.lean.  `nan` of `np.sqrt` is `none`.  Plots and
the counter `k` are left out.  Not modelled: the interpolated table of the synchronous motors (`griddata`; a table is a parameter), `np.roots`
(the number it gives is a parameter).
-/

namespace GEM.Classic

open GEM GEM.Motor GEM.Ops

noncomputable section

/-! ## Synchronous motors -/

/-- How the currents are found (torque_to_current_conversion.py 282–311): `online`, with the number `np.roots` gives for torque and flux,
or from a table. -/
inductive Find
  | online (root : ℝ → ℝ → ℝ)
  | table (lut : Lut)

/-- Attributes of a `TorqueToCurrentConversion` that never change (torque_to_current_conversion.py 31–316): tables, modulation controller,
nominal values and limits, indices of the states. -/
structure SyncTorque where
  tab : Sync
  mod : ModPar
  find : Find
  nomD : ℝ
  nomQ : ℝ
  limD : ℝ
  limQ : ℝ
  omega : ℕ
  uSd : ℕ
  uSq : ℕ
  limOmega : ℝ
  limUd : ℝ
  limUq : ℝ

/-- `max_torque` (torque_to_current_conversion.py 91–98) -/
def maxTorqueOf (mp : SyncParams ℝ) (limD limQ limT : ℝ) : ℝ :=
  max (3 / 2 * mp.p * (mp.psiP + (mp.ld - mp.lq) * -limD) * limQ) limT

/-- The tables of the constructor (torque_to_current_conversion.py 82–225, sizes 72–74).  The grid of the first table has 2.5 times the limit of
the current, that of the second one the nominal current. -/
def syncTables (mp : SyncParams ℝ) (nomD nomQ limD limQ limT : ℝ) : Sync :=
  let t := maxTorqueOf mp limD limQ limT
  let grid := if mp.psiP = 0 then linspace (-(5 / 2 * limQ)) (5 / 2 * limQ) 500 else linspace (-(5 / 2 * limD)) 0 500
  let f := mtpfTable mp (linspace (-nomD) 0 500) nomD nomQ 250
  { mp := mp, mtpc := (linspace (-t) t 250).filterMap (mtpcRow mp grid), mtpf := f.1, maxTorque := t, psiMaxMtpf := f.2
    tCount := 250, psiCount := 250 }

/-- The parameters of the modulation controller (torque_to_current_conversion.py 51–70); `limUa` is the limit of `u_a`, `r` is `r_s`. -/
def syncMod (mp : SyncParams ℝ) (nomD nomQ limUa r tau : ℝ) : ModPar :=
  let d : ℝ := 12 / 10
  let alpha := d / (d - √(d ^ 2 - 1))
  let high := 2 / 10 * mtpfFlux mp nomD nomQ
  { p := mp.p, tau := tau, uDc := √3 * limUa, aMax := 2 / √3, k := 95 / 100
    iGain := 1 / (mp.lq / (5 / 4 * r)) * (alpha - 1) / alpha ^ 2
    psiLow := -high, psiHigh := high, resetValue := 1 / 100 * -high }

/-- `modulation_control` (torque_to_current_conversion.py 602–672) is that of `gem_controllers`, its inputs are normalised. -/
def SyncTorque.modulation (c : SyncTorque) (st : ModSt) (s : ℕ → ℝ) : Call ModSt ℝ :=
  Ops.modulation c.mod st (s c.omega * c.limOmega) (s c.uSd * c.limUd) (s c.uSq * c.limUq)

/-- the currents before the limits (torque_to_current_conversion.py 508–552) for the answer `psiMod` of the modulation controller:
`i_d`, `i_q` -/
def SyncTorque.select (c : SyncTorque) (psiMod torque : ℝ) : Except Err (ℝ × ℝ) :=
  match c.find with
  | .online root => selectOnline c.tab root psiMod torque
  | .table lut => selectTable c.tab lut psiMod torque

/-- `control` (torque_to_current_conversion.py 502–600): the references of `i_q` and `i_d`, in this order.  The first lookup comes before
the modulation controller is called. -/
def SyncTorque.control (c : SyncTorque) (st : ModSt) (s : ℕ → ℝ) (torque : ℝ) : Call ModSt (ℝ × ℝ) :=
  match at? c.tab.mtpc (idxMtpc c.tab.maxTorque c.tab.tCount torque) with
  | .error e => (st, .error e)
  | .ok _ =>
    let m := c.modulation st s
    match m.2 with
    | .error e => (m.1, .error e)
    | .ok psiMod =>
      (m.1, (c.select psiMod torque).map fun i => (clip i.2 (-c.nomQ) c.nomQ / c.limQ, clip i.1 (-c.nomD) c.nomD / c.limD))

/-- `integrated` and `limited` of the constructor (torque_to_current_conversion.py 61–62) -/
def syncTorqueNew : ModSt := ⟨some 0, false⟩

/-- `reset` (torque_to_current_conversion.py 710–712) -/
def SyncTorque.reset (c : SyncTorque) (st : ModSt) : ModSt := modReset c.mod st

/-- The conversion as a part of the cascaded controller; a call that raises an exception ends the program, its answer is 0 here. -/
def SyncTorque.conversion (c : SyncTorque) : Conversion ModSt where
  control st s torque :=
    let a := c.control st s torque
    match a.2 with
    | .error _ => (a.1, 0, 0)
    | .ok i => (a.1, i)
  reset := c.reset

/-! ## Induction motors -/

/-- Attributes of an `InductionMotorTorqueToCurrentConversion` that never change
(induction_motor_torque_to_current_conversion.py 26–91): `psiOpt` is `psi_opt_t[1]`, `tMaxPsi` is `t_max_psi[0]`. -/
structure ImTorque where
  mp : ImParams ℝ
  mod : ModPar
  psiOpt : List ℝ
  tMaxPsi : List (Option ℝ)
  psiMax : ℝ
  tMax : ℝ
  tCount : ℕ
  psiCount : ℕ
  nomD : ℝ
  nomQ : ℝ
  limD : ℝ
  limQ : ℝ
  omega : ℕ
  uSd : ℕ
  uSq : ℕ
  limOmega : ℝ
  limUd : ℝ
  limUq : ℝ

/-- the optimal fluxes (induction_motor_torque_to_current_conversion.py 115–141), one for each of `n` torques; the search is that of
`scim_ops.py` -/
def imPsiOpt (mp : ImParams ℝ) (limD tMax : ℝ) (n : ℕ) : List ℝ :=
  (linspace (-tMax) tMax n).map fun t => ((psiOptRow mp (linspace 0 limD 500) t).map Row.psi).getD 0

/-- the largest torque with a flux at the nominal speed and voltage (induction_motor_torque_to_current_conversion.py 152–159), `none` if
the flux alone needs more than the nominal voltage -/
def imTMaxRow (mp : ImParams ℝ) (nomU nomOmega psi : ℝ) : Option ℝ :=
  let y := nomU ^ 2 / (nomOmega ^ 2 * mp.ls ^ 2) - (psi / mp.lm) ^ 2
  if 0 ≤ y then some (3 / 2 * mp.p * mp.lm / mp.lr * psi * √y) else none

/-- `t_max_psi[0]` (induction_motor_torque_to_current_conversion.py 143–170): positive torques from the largest flux to 0, then negative
ones back -/
def imTMax (mp : ImParams ℝ) (nomU nomOmega psiMax : ℝ) (n : ℕ) : List (Option ℝ) :=
  let rows := (linspace psiMax 0 n).map (imTMaxRow mp nomU nomOmega)
  rows ++ rows.reverse.map fun t => t.map fun x => -x

/-- the parameters of the modulation controller (induction_motor_torque_to_current_conversion.py 72–86) -/
def imMod (mp : ImParams ℝ) (psiMax limUa tau : ℝ) : ModPar :=
  let d : ℝ := 2
  let alpha := d / (d - √(d ^ 2 - 1))
  { p := mp.p, tau := tau, uDc := √3 * limUa, aMax := 1, k := 8 / 10
    iGain := 1 / (mp.ls / (5 / 4 * mp.rs)) * (alpha - 1) / alpha ^ 2
    psiLow := -psiMax, psiHigh := 1 / 10 * psiMax, resetValue := 5 / 10 * -psiMax }

/-- `modulation_control` (induction_motor_torque_to_current_conversion.py 263–323): new value of `integrated` and largest flux.  Other than
in `gem_controllers` the gain grows with the speed, there is no `limited` and the flux is never negative. -/
def ImTorque.modulation (c : ImTorque) (x : ℝ) (s : ℕ → ℝ) : ℝ × ℝ :=
  let a := modulationOf c.mod (s c.uSd * c.limUd) (s c.uSq * c.limUq)
  let x := if 101 / 100 * c.mod.aMax < a then c.mod.resetValue else x
  let aDelta := c.mod.k * c.mod.aMax - a
  let w := max (|s c.omega| * c.limOmega) (1 / 10000)
  let delta := c.mod.iGain * (2 * w * c.mod.p / c.mod.uDc) * (aDelta * c.mod.tau + x)
  let inside := c.mod.psiLow ≤ delta ∧ delta ≤ c.mod.psiHigh
  (if inside then x + aDelta * c.mod.tau else x,
    max (c.mod.uDc / (√3 * w * c.mod.p) + if inside then delta else clip delta c.mod.psiLow c.mod.psiHigh) 0)

/-- the reference of `i_sq` (induction_motor_torque_to_current_conversion.py 221–230) for a torque, the magnitude of the flux and the
reference of `i_sd`; `none` if the second one alone exceeds the nominal value of the first -/
def ImTorque.iSq (c : ImTorque) (torque psiAbs isd : ℝ) : Option ℝ :=
  let x := clip (torque / max psiAbs (1 / 1000) * 2 / 3 / c.mp.p * c.mp.lr / c.mp.lm) (-c.nomQ) c.nomQ
  if c.nomQ < √(x ^ 2 + isd ^ 2) then if 0 ≤ c.nomQ ^ 2 - isd ^ 2 then some (sign x * √(c.nomQ ^ 2 - isd ^ 2)) else none
  else some x

/-- `control` (induction_motor_torque_to_current_conversion.py 188–261): references of `i_sq` and `i_sd`, optimal flux.  The state consists of
the flux controller and `integrated`.  `psi_max` has to be positive, else the lookup of the torque divides 0 by 0. -/
def ImTorque.control (c : ImTorque) (psiAbs : ℝ) (st : Cont ℝ × ℝ) (s : ℕ → ℝ) (torque : ℝ) : Call (Cont ℝ × ℝ) (Option ℝ × ℝ × ℝ) :=
  match at? c.psiOpt (idxPsiOpt c.tMax c.tCount torque) with
  | .error e => (st, .error e)
  | .ok opt =>
    let m := c.modulation st.2 s
    let want := min opt m.2
    match at? c.tMaxPsi (c.psiCount - idxTMax c.psiMax c.psiCount want) with
    | .error e => ((st.1, m.1), .error e)
    | .ok tLim =>
      let y := st.1.control psiAbs want
      let isd := clip y.2 (-(9 / 10 * c.nomD)) (9 / 10 * c.nomD)
      let f := if y.2 = isd then y.1.integrate psiAbs want else y.1
      let isq := tLim.bind fun t => c.iSq (clip torque (-|t|) |t|) psiAbs isd
      ((f, m.1), .ok (isq.map fun i => i / c.limQ, isd / c.limD, want))

/-- the state of the constructor (induction_motor_torque_to_current_conversion.py 49–53, 81) -/
def imTorqueNew (p tau : ℝ) : Cont ℝ × ℝ := (Cont.new p (p / tau) none tau, 0)

/-- `reset` (induction_motor_torque_to_current_conversion.py 361–363) -/
def imTorqueReset (st : Cont ℝ × ℝ) : Cont ℝ × ℝ := (st.1.reset, st.2)

/-- The attributes the constructor sets (induction_motor_torque_to_current_conversion.py 26–91); `nomU`, `nomOmega` are the nominal values of
`u_sd` and `omega`, `limT`, `limUa` the limits of `torque` and `u_sa`. -/
def imTables (mp : ImParams ℝ) (nomD nomQ limD limQ limT nomU nomOmega limUa tau : ℝ) (omega uSd uSq : ℕ) (limOmega limUd limUq : ℝ) :
    ImTorque :=
  let opt := imPsiOpt mp limD limT 1001
  let psiMax := opt.foldl max 0
  { mp := mp, mod := imMod mp psiMax limUa tau, psiOpt := opt, tMaxPsi := imTMax mp nomU nomOmega psiMax 1000, psiMax := psiMax
    tMax := limT, tCount := 1001, psiCount := 1000, nomD := nomD, nomQ := nomQ, limD := limD, limQ := limQ
    omega := omega, uSd := uSd, uSq := uSq, limOmega := limOmega, limUd := limUd, limUq := limUq }

/-- The conversion as a part of the cascaded controller; the answer is 0 if a call raises an exception, and for `nan`. -/
def ImTorque.conversion (c : ImTorque) (psiAbs : ℝ) : Conversion (Cont ℝ × ℝ) where
  control st s torque :=
    let a := c.control psiAbs st s torque
    match a.2 with
    | .error _ => (a.1, 0, 0)
    | .ok i => (a.1, i.1.getD 0, i.2.1)
  reset := imTorqueReset

end

end GEM.Classic
