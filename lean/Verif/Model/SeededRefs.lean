import Verif.Model.References
import Verif.Model.Seeding

/-!
# Reference generators with their seed sequences

`random_component.py`, `core.py` 373–385, `multiple_reference_generator.py` 87–92, `switched_reference_generator.py` 90–95.

In `Model/References.lean` the children of the seed sequence of a generator are a fixed function `spawn`.  Here the sequence is an
attribute, which `seed` exchanges; it is given by the stream that `default_rng` would make of it (`GEM.Seeding.Stream`), the number of
children spawned so far is kept in the attributes of the generators.  `rng` stands for `default_rng`.
-/

namespace GEM.Refs

open GEM GEM.Seeding

/-- the `n`-th child of a seed sequence -/
def child (r : Stream) (n : ℕ) : Stream := ⟨r.entropy, r.key ++ [n]⟩

/-- A class of reference generators: the methods for a given seed sequence, `isinstance(.., RandomComponent)`, and the effect of
`seed` on the attributes.  Names and spaces do not depend on the sequence. -/
structure Seeded (σ K : Type) where
  gen : Stream → RefGen σ K
  random : Bool
  seed : Stream → σ → σ

variable {σ G K : Type}

/-- Objects of the class: attributes with the seed sequence. -/
def Seeded.obj (g : Seeded σ K) : RefGen (Stream × σ) K where
  names := (g.gen ⟨0, []⟩).names
  referenced := (g.gen ⟨0, []⟩).referenced
  low := (g.gen ⟨0, []⟩).low
  high := (g.gen ⟨0, []⟩).high
  reset x s i := (((x.1, ((g.gen x.1).reset x.2 s i).1)), ((g.gen x.1).reset x.2 s i).2)
  getRef x s := (((x.1, ((g.gen x.1).getRef x.2 s).1)), ((g.gen x.1).getRef x.2 s).2)
  getObs x s := (((x.1, ((g.gen x.1).getObs x.2 s).1)), ((g.gen x.1).getObs x.2 s).2)

/-- `seed` on an object that is a random component -/
def Seeded.reseed (g : Seeded σ K) (r : Stream) (x : Stream × σ) : Stream × σ := (r, g.seed r x.2)

/-- `_seed` of the environment: the reference generator gets the second child of `SeedSequence(n)`, if it is a random component
(core.py 373–385). -/
def Seeded.envSeed (g : Seeded σ K) (n : ℕ) (x : Stream × σ) : Stream × σ :=
  if g.random then g.reseed ⟨n, [1]⟩ x else x

/-- Sub-episoded generators (`RandomComponent.seed`, random_component.py 64–85). -/
def subSeeded [Zero K] (rng : Stream → G) (c : SubCfg G K) : Seeded (SubSt G K) K where
  gen r := subGen { c with spawn := fun n => rng (child r n) }
  random := true
  seed r st := { st with gen := rng (child r 0), spawned := 1 }

/-- Constant and zero references are no random components. -/
def plainSeeded (g : RefGen σ K) : Seeded σ K where
  gen _ := g
  random := false
  seed _ st := st

/-- `seed` of the sub-generators: one child for each that is a random component, beginning with child `n`. -/
def seedSubs : List (Seeded σ K) → Stream → ℕ → List (Stream × σ) → List (Stream × σ)
  | g :: gs, r, n, x :: xs =>
    if g.random then g.reseed (child r n) x :: seedSubs gs r (n + 1) xs else x :: seedSubs gs r n xs
  | _, _, _, xs => xs

/-- number of random sub-generators -/
def randoms (gs : List (Seeded σ K)) : ℕ := (gs.filter (·.random)).length

/-- `MultipleReferenceGenerator` for `n` states (multiple_reference_generator.py 87–92); child 0 makes its own random generator, which it
does not use. -/
def multiSeeded [Add K] [Zero K] (n : ℕ) (gs : List (Seeded σ K)) : Except Err (Seeded (List (Stream × σ)) K) :=
  (multiGen n (gs.map Seeded.obj)).map fun g => { gen := fun _ => g, random := true, seed := fun r xs => seedSubs gs r 1 xs }

/-- `SwitchedReferenceGenerator` (switched_reference_generator.py 90–95), with the draws of `c`. -/
def switchedSeeded [Min K] [Max K] (rng : Stream → G) (gs : List (Seeded σ K)) (integers : G → G × ℤ) (choice : G → G × ℕ) :
    Except Err (Seeded (SwSt G (Stream × σ) K) K) :=
  match switchedGen (G := G) ⟨gs.map Seeded.obj, integers, choice, fun n => rng (child ⟨0, []⟩ n)⟩ with
  | .error e => .error e
  | .ok g => .ok {
      gen := fun r => { g with
        reset := swReset ⟨gs.map Seeded.obj, integers, choice, fun n => rng (child r n)⟩
        getRef := swRef ⟨gs.map Seeded.obj, integers, choice, fun n => rng (child r n)⟩
        getObs := swObs ⟨gs.map Seeded.obj, integers, choice, fun n => rng (child r n)⟩ }
      random := true
      seed := fun r st => { st with subs := seedSubs gs r 1 st.subs, gen := rng (child r 0), spawned := 1 + randoms gs } }

end GEM.Refs
