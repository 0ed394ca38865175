import Verif.Model.Converters

/-!
# Histories of converter calls

The methods a caller may invoke on a converter object, as operations, and the object reached after a list of them.
A raising call leaves the object as the model of the method says.
-/

namespace GEM.Conv

variable {K : Type*} [Field K] [LinearOrder K] [IsStrictOrderedRing K]

/-- Public methods of an elementary finite converter that change it. -/
inductive FOp (K : Type*) where
  | setAction (a : ℕ) (t : K)
  | convert (i : List K) (t : K)
  | reset
  | setTau (v : K)

/-- One call. -/
def FConv.step (c : FConv K) : FOp K → FConv K
  | .setAction a t => (c.setAction a t).1
  | .convert i t => (c.convert i t).1
  | .reset => c.reset.1
  | .setTau v => c.setTau v

/-- A history of calls. -/
def FConv.run (c : FConv K) (ops : List (FOp K)) : FConv K := ops.foldl FConv.step c

/-- A converter as its constructor leaves it. -/
inductive FConv.Fresh : K → K → FConv K → Prop
  | one (tau il : K) : Fresh tau il (.one (OneQC.new tau))
  | two (tau il : K) : Fresh tau il (.two (TwoQC.new tau il))
  | four (tau il : K) : Fresh tau il (.four (FourQC.new tau il))
  | b6 (tau il : K) : Fresh tau il (.b6 (B6.new tau il))

/-- Public methods of a finite multi converter that change it. -/
inductive MOp (K : Type*) where
  | setAction (a : List ℕ) (t : K)
  | convert (i : List K) (t : K)
  | reset
  | setTau (v : K)

/-- One call on a finite multi converter. -/
def mStep (cs : List (FConv K)) : MOp K → List (FConv K)
  | .setAction a t => (multiSetAction cs a t).1
  | .convert i t => (multiConvert cs i t).1
  | .reset => (multiReset cs).1
  | .setTau v => multiSetTau cs v

/-- A history of calls on a finite multi converter. -/
def mRun (cs : List (FConv K)) (ops : List (MOp K)) : List (FConv K) := ops.foldl mStep cs

/-- Public methods of an elementary continuous converter that change it. -/
inductive COp (K : Type*) where
  | setAction (a : List K) (t : K)
  | reset
  | setTau (v : K)

/-- One call on a continuous converter. -/
def CConv.step (c : CConv K) : COp K → CConv K
  | .setAction a t => (c.setAction a t).1
  | .reset => c.reset.1
  | .setTau v => c.setTau v

/-- A history of calls on a continuous converter. -/
def CConv.run (c : CConv K) (ops : List (COp K)) : CConv K := ops.foldl CConv.step c

/-- A continuous converter as its constructor leaves it. -/
inductive CConv.Fresh : K → K → CConv K → Prop
  | one (tau il : K) : Fresh tau il (.one (COne.new tau))
  | two (tau il : K) : Fresh tau il (.two (CTwo.new tau il))
  | four (tau il : K) : Fresh tau il (.four (CFour.new tau il))
  | b6 (tau il : K) : Fresh tau il (.b6 (CB6.new tau il))

/-- `ContMultiConverter.reset` (converters.py 710–715). -/
def cMultiReset : List (CConv K) → List (CConv K) × List K
  | [] => ([], [])
  | c :: cs => (c.reset.1 :: (cMultiReset cs).1, c.reset.2 ++ (cMultiReset cs).2)

/-- One call on a continuous multi converter. -/
def cmStep (cs : List (CConv K)) : COp K → List (CConv K)
  | .setAction a t => (cMultiSetAction cs a t).1
  | .reset => (cMultiReset cs).1
  | .setTau v => cMultiSetTau cs v

/-- A history of calls on a continuous multi converter. -/
def cmRun (cs : List (CConv K)) (ops : List (COp K)) : List (CConv K) := ops.foldl cmStep cs

/-- One control interval of a half bridge as the physical system drives it (physical_systems.py 171–203):
`set_action(action, t)`, `convert(i0, t)` and possibly further `convert` calls later in the interval. -/
structure Period (K : Type*) where
  action : ℕ
  t : K
  i0 : List K
  samples : List (List K × K)

/-- The `convert` calls of one interval; records time and switch position after each call. -/
def convertTrace (c : TwoQC K) : List (List K × K) → TwoQC K × List (K × ℕ)
  | [] => (c, [])
  | (i, t) :: rest =>
    let c' := (c.convert i t).1
    let r := convertTrace c' rest
    (r.1, (t, c'.state) :: r.2)

/-- Switch positions over a list of control intervals. -/
def periodTrace (c : TwoQC K) : List (Period K) → List (K × ℕ)
  | [] => []
  | p :: ps =>
    let c' := (c.setAction p.action p.t).1
    let r := convertTrace c' ((p.i0, p.t) :: p.samples)
    r.2 ++ periodTrace r.1 ps

/-- Bounds of the `voltages` box of a converter. -/
def FConv.lows (c : FConv K) : List K := List.replicate c.dim c.vLow
/-- Upper bounds. -/
def FConv.highs (c : FConv K) : List K := List.replicate c.dim c.vHigh

/-- Bounds of the concatenated `voltages` box of a multi converter (converters.py 556–578). -/
def mLows (cs : List (FConv K)) : List K := cs.flatMap FConv.lows
/-- Upper bounds. -/
def mHighs (cs : List (FConv K)) : List K := cs.flatMap FConv.highs

/-- Intervals follow each other without overlap, actions are legal, `convert` is called in chronological order. -/
def Protocol (tau : K) : K → List (Period K) → Prop
  | _, [] => True
  | tPrev, p :: ps => tPrev ≤ p.t ∧ p.action < 3 ∧
      ((p.i0, p.t) :: p.samples).Pairwise (fun p q => p.2 ≤ q.2) ∧ Protocol tau (p.t + tau) ps

/-- The `voltages` boxes of continuous converters (converters.py 387, 421, 459, 865, 671–698). -/
def CConv.lows (c : CConv K) : List K := List.replicate c.dim c.vLow
/-- Upper bounds. -/
def CConv.highs (c : CConv K) : List K := List.replicate c.dim c.vHigh
/-- Bounds of the concatenated box of a continuous multi converter. -/
def cmLows (cs : List (CConv K)) : List K := cs.flatMap CConv.lows
/-- Upper bounds. -/
def cmHighs (cs : List (CConv K)) : List K := cs.flatMap CConv.highs

end GEM.Conv
