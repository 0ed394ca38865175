import Verif.Model.References

/-!
# Vocabulary for the statements about reference generators

Histories of a generator as its user sees them, the laws of the random numbers, and the concatenation of sub-episodes.
-/

namespace GEM.Refs

open GEM

/-- All numbers lie in the interval. -/
def Inside (m : ℝ × ℝ) (l : List ℝ) : Prop := ∀ v ∈ l, m.1 ≤ v ∧ v ≤ m.2

/-- What numpy documents about its draws. -/
structure RngOk {G : Type} (R : Rng G) : Prop where
  uniform : ∀ g, 0 ≤ (R.uniform g).2 ∧ (R.uniform g).2 < 1
  normal : ∀ s n g, (R.normal s n g).2.length = n
  laplace : ∀ s n g, (R.laplace s n g).2.length = n
  triangular : ∀ g, 0 ≤ (R.triangular g).2 ∧ (R.triangular g).2 ≤ 1

variable {G K σ : Type}

/-- What a user can do with a reference generator. -/
inductive Op (K : Type) where
  | reset (s : List K) (init : Option (List K))
  | ref (s : List K)
  | obs (s : List K)

/-- What the user gets. -/
inductive Out (K : Type) where
  | reset (r : Except Err (List K × List K))
  | ref (r : Except Err (List K))
  | obs (r : Except Err (List K))

/-- One call. -/
def apply (g : RefGen σ K) (st : σ) : Op K → σ × Out K
  | .reset s i => ((g.reset st s i).1, .reset (g.reset st s i).2)
  | .ref s => ((g.getRef st s).1, .ref (g.getRef st s).2)
  | .obs s => ((g.getObs st s).1, .obs (g.getObs st s).2)

/-- A history of calls. -/
def run (g : RefGen σ K) : σ → List (Op K) → σ × List (Out K)
  | st, [] => (st, [])
  | st, op :: ops => ((run g (apply g st op).1 ops).1, (apply g st op).2 :: (run g (apply g st op).1 ops).2)

/-- No exception. -/
def Out.isOk : Out K → Bool
  | .reset (.ok _) => true
  | .ref (.ok _) => true
  | .obs (.ok _) => true
  | _ => false

/-- The reference observation in an answer, if there is one. -/
def Out.observation : Out K → Option (List K)
  | .reset (.ok (_, o)) => some o
  | .obs (.ok o) => some o
  | _ => none

/-- Sub-episodes never fail: the draw yields a length of at least 1 and `_reset_reference` that many values. -/
def Steady (c : SubCfg G K) : Prop :=
  ∀ m v g, ∃ (n : ℤ) (l : List K), (c.drawLen g).2 = .ok n ∧ 1 ≤ n ∧
    (c.make m v n (c.drawLen g).1).2 = .ok l ∧ (l.length : ℤ) = n

/-- The sub-episode generated from generator state `g` and last reference `v`: generator state afterwards and values. -/
def episode (c : SubCfg G K) (m : K × K) (g : G) (v : K) : G × List K :=
  match (c.drawLen g).2 with
  | .error _ => (g, [])
  | .ok n =>
    match (c.make m v n (c.drawLen g).1).2 with
    | .error _ => (g, [])
    | .ok l => ((c.make m v n (c.drawLen g).1).1, l)

/-- The successive sub-episodes: each one continues with the generator and the last value of the one before. -/
def episodes (c : SubCfg G K) (m : K × K) (g : G) (v : K) : ℕ → G × List K
  | 0 => episode c m g v
  | j + 1 => episode c m (episodes c m g v j).1 ((episodes c m g v j).2.getLastD v)

/-- The first `j` sub-episodes in a row. -/
def joined (c : SubCfg G K) (m : K × K) (g : G) (v : K) (j : ℕ) : List K :=
  (List.range j).flatMap (fun i => (episodes c m g v i).2)

/-- The triangle wave of period 1 between -1 and 1 that rises during the share `w` of the period. -/
noncomputable def zigzag (w x : ℝ) : ℝ :=
  if Int.fract x < w then 2 * Int.fract x / w - 1 else 1 - 2 * (Int.fract x - w) / (1 - w)

/-- A reference array that is zero outside the referenced states and has one entry per state. -/
def Honest (n : ℕ) (g : RefGen σ K) [Zero K] : Prop :=
  g.referenced.length = n ∧
    (∀ st s v, (g.getRef st s).2 = .ok v → v.length = n ∧ ∀ i : ℕ, i < n → g.referenced[i]? = some false → v[i]? = some 0) ∧
    (∀ st s init v o, (g.reset st s init).2 = .ok (v, o) →
      v.length = n ∧ ∀ i : ℕ, i < n → g.referenced[i]? = some false → v[i]? = some 0)

/-- `v` has one entry per bound and lies between the bounds. -/
def Within [LE K] (low high v : List K) : Prop := List.Forall₂ (· ≤ ·) low v ∧ List.Forall₂ (· ≤ ·) v high

end GEM.Refs
