import Mathlib.Algebra.BigOperators.Fin
import Mathlib.Algebra.Order.Field.Basic
import Verif.Model.Control

/-!
# Vocabulary for the statements about the controllers
-/

namespace GEM.Ctl

open GEM

variable {K : Type} [Field K] [LinearOrder K] [IsStrictOrderedRing K] {n m k : ℕ}

/-- Square of the length of a vector, measured in units of the limits of its components. -/
def lengthSq (limits v : Fin n → K) : K := ∑ i, (v i / limits i) ^ 2

/-- The same for the components that are limited together. -/
def partLengthSq (together : Fin n → Bool) (limits v : Fin n → K) : K :=
  ∑ i, if together i then (v i / limits i) ^ 2 else 0

/-- A reference the clipping stage lets pass. -/
def Admissible : Clip n K → (Fin n → K) → Prop
  | .absolute lo hi, v => ∀ i, lo i ≤ v i ∧ v i ≤ hi i
  | .squared limits margin, v => lengthSq limits v ≤ (1 - margin) ^ 2
  | .combined together limits lo hi _, v =>
    partLengthSq together limits v ≤ 1 ∧ ∀ i, together i = false → lo i ≤ v i ∧ v i ≤ hi i

/-- The clipping stage was tuned: ranges are ranges, and the margin of a squared stage is the one `tune` leaves. -/
def Tuned : Clip n K → Prop
  | .absolute lo hi => ∀ i, lo i ≤ hi i
  | .squared _ margin => margin = 0
  | .combined together _ lo hi margin => 0 ≤ margin ∧ margin < 1 ∧ ∀ i, together i = false → lo i ≤ hi i

/-- One call of the current controller: the error of each current, the voltage the stages computed, and the voltage reference
the controller stored. -/
structure Step (n : ℕ) (K : Type) where
  error : Fin n → K
  computed : Fin n → K
  stored : Fin n → K

/-- Sum of the errors of component `i` over the steps in which the computed value was not clipped. -/
def sumUnclipped (i : Fin n) : List (Step n K) → K
  | [] => 0
  | st :: rest => (if st.computed i = st.stored i then st.error i else 0) + sumUnclipped i rest

/-- The calls with the inputs `xs`, one after the other, as long as none raises. -/
def Current.run (T : (Fin m → K) → (Fin n → K) → (Fin k → K)) (c : Current n m K) :
    List ((Fin m → K) × (Fin n → K)) → Current n m K × List (Except Err (Fin k → K))
  | [] => (c, [])
  | x :: xs =>
    let a := c.control T x.1 x.2
    let rest := Current.run T a.1 xs
    (rest.1, a.2 :: rest.2)

/-- What happened in these calls. -/
def Current.steps (T : (Fin m → K) → (Fin n → K) → (Fin k → K)) (c : Current n m K) :
    List ((Fin m → K) × (Fin n → K)) → List (Step n K)
  | [] => []
  | x :: xs => ⟨fun i => x.2 i - x.1 (c.idx i), c.raw x.1 x.2, c.clipping.call (c.raw x.1 x.2)⟩ ::
      Current.steps T (c.control T x.1 x.2).1 xs

/-- The same for the speed controller. -/
def Speed.run (c : Speed m K) :
    List ((Fin m → K) × (Fin 1 → K)) → Speed m K × List (Except Err (Fin 1 → K))
  | [] => (c, [])
  | x :: xs =>
    let a := c.control x.1 x.2
    let rest := Speed.run a.1 xs
    (rest.1, a.2 :: rest.2)

def Speed.steps (c : Speed m K) : List ((Fin m → K) × (Fin 1 → K)) → List (Step 1 K)
  | [] => []
  | x :: xs => ⟨fun i => x.2 i - x.1 (c.idx i), (c.base.control x.1 x.2).2, c.clipping.call (c.base.control x.1 x.2).2⟩ ::
      Speed.steps (c.control x.1 x.2).1 xs

/-- What a base controller is asked to do: compute an output, or take an increment of its integrator. -/
inductive Ask (n m : ℕ) (K : Type) where
  | control (s : Fin m → K) (r : Fin n → K)
  | integrate (delta : Fin n → K)

/-- The outputs of a base controller. -/
def Base.outputs (b : Base n m K) : List (Ask n m K) → List (Fin n → K)
  | [] => []
  | .control s r :: rest => (b.control s r).2 :: Base.outputs (b.control s r).1 rest
  | .integrate d :: rest => Base.outputs (b.integrate d).1 rest

/-- Two controllers that were set up in the same way; the integrator and the last error may differ. -/
def Base.SameSetup (b b' : Base n m K) : Prop :=
  b.kind = b'.kind ∧ b.pGain = b'.pGain ∧ b.iGain = b'.iGain ∧ b.dGain = b'.dGain ∧ b.tau = b'.tau ∧ b.idx = b'.idx

/-- An action of a discrete action space. -/
def Contains : ActionSpace → DiscAction → Prop
  | .discrete n, .one a => a < n
  | .b6, .one a => a < 8
  | .multi nvec, .many as => List.Forall₂ (· < ·) as nvec
  | _, _ => False

end GEM.Ctl
