import Verif.Model.Wrappers

/-!
# Notions for the wrapper properties

Independent of the wrappers: executions of a physical system, what it means that its announcements fit the vectors it
returns, and how rows of noise are consumed.
-/

namespace GEM.Wrap

open Real

variable {σ A : Type}

/-- Consecutive calls of `simulate` and what each of them returns (exceptions included). -/
def runs (s : PSys σ A) : σ → List A → σ × List (Except Err (List ℝ))
  | st, [] => (st, [])
  | st, a :: as => ((runs s (s.simulate st a).1 as).1, (s.simulate st a).2 :: (runs s (s.simulate st a).1 as).2)

/-- A system fits its announcements: one limit, nominal value and pair of bounds per state name, positions that lead to the
name, and vectors of that length from `reset` and `simulate`. -/
structure Consistent (s : PSys σ A) : Prop where
  limits : s.limits.length = s.names.length
  nominal : s.nominal.length = s.names.length
  low : s.low.length = s.names.length
  high : s.high.length = s.names.length
  pos : ∀ (k : String) (i : ℕ), s.pos k = some i → s.names[i]? = some k
  named : ∀ k ∈ s.names, ∃ i, s.pos k = some i
  reset : ∀ st v, (s.reset st).2 = .ok v → v.length = s.names.length
  simulate : ∀ st a v, (s.simulate st a).2 = .ok v → v.length = s.names.length

/-- The value reported under a name. -/
def valueOf (s : PSys σ A) (v : List ℝ) (k : String) : Option ℝ := (s.pos k).bind (fun i => v[i]?)

/-- The physical value behind the entry of a name. -/
noncomputable def physical (s : PSys σ A) (v : List ℝ) (k : String) : Option ℝ :=
  (s.pos k).bind (fun i => (v[i]?).bind (fun x => (s.limits[i]?).map (fun l => x * l)))

/-- `b` is `a` with `x` added to the entries at `idx`, one number of the row for every index, and nothing else changed. -/
def Added (idx : List ℕ) (row a b : List ℝ) : Prop :=
  b.length = a.length ∧ (∀ i : ℕ, i ∉ idx → b[i]? = a[i]?) ∧
    ∀ (j i : ℕ) (x y : ℝ), idx[j]? = some i → row[j]? = some x → a[i]? = some y → b[i]? = some (y + x)

/-- Every returned vector gets the next row of a noise sequence, starting with row `k`; exceptions use none. -/
def NoisyFrom (idx : List ℕ) (rows : ℕ → List ℝ) : ℕ → List (Except Err (List ℝ)) → List (Except Err (List ℝ)) → Prop
  | _, [], [] => True
  | k, .error e :: l, .error f :: m => e = f ∧ NoisyFrom idx rows k l m
  | k, .ok v :: l, .ok w :: m => Added idx (rows k) v w ∧ NoisyFrom idx rows (k + 1) l m
  | _, _, _ => False

/-- The generator after `j` blocks of samples have been drawn. -/
def genAfter {G : Type} (draw : G → G × List (List ℝ)) (g : G) : ℕ → G
  | 0 => g
  | j + 1 => (draw (genAfter draw g j)).1

/-- Row `k` of all samples drawn from `g` in blocks of `len` rows. -/
def sampleRow {G : Type} (draw : G → G × List (List ℝ)) (g : G) (len k : ℕ) : List ℝ :=
  ((draw (genAfter draw g (k / len))).2[k % len]?).getD []

end GEM.Wrap
