import Mathlib.Data.List.Basic
import Verif.Model.Basic

/-!
# Seeding  (`random_component.py`, `core.py` 373–385, `physical_systems.py` 164–169, `physical_system_wrapper.py` 108–111,
`multiple_reference_generator.py` 87–92, `switched_reference_generator.py` 90–95)

A numpy `SeedSequence` is its entropy, its spawn key and the number of children spawned so far (numpy documentation);
a generator is created by `default_rng(child)` and is therefore determined by entropy and spawn key of the child.
-/

namespace GEM.Seeding

/-- `numpy.random.SeedSequence` -/
structure SeedSeq where
  entropy : ℕ
  key : List ℕ
  spawned : ℕ
deriving DecidableEq

/-- `SeedSequence(seed)` -/
def SeedSeq.new (entropy : ℕ) : SeedSeq := ⟨entropy, [], 0⟩

/-- A random stream: what `default_rng` makes of a child sequence. -/
structure Stream where
  entropy : ℕ
  key : List ℕ
deriving DecidableEq

/-- `spawn(1)[0]`: the child, and the sequence afterwards. -/
def SeedSeq.spawn1 (s : SeedSeq) : SeedSeq × SeedSeq :=
  (⟨s.entropy, s.key ++ [s.spawned], 0⟩, { s with spawned := s.spawned + 1 })

/-- The attributes of `RandomComponent`: sequence and current generator. -/
structure RC where
  seq : SeedSeq
  gen : Stream
deriving DecidableEq

/-- `RandomComponent.seed` with a given sequence (random_component.py 64–85). -/
def RC.seed (s : SeedSeq) : RC :=
  let (child, s') := s.spawn1
  ⟨s', ⟨child.entropy, child.key⟩⟩

/-- `RandomComponent.next_generator` (random_component.py 85–87). -/
def RC.next (c : RC) : RC := RC.seed c.seq

mutual
/-- The module tree: modules that are no `RandomComponent`; plain random components (motor, load, sub-episoded reference
generators, random callbacks); wrappers around a physical system; physical systems with their components; multiple and
switched reference generators with their sub-generators. -/
inductive Comp where
  | plain
  | rand (c : RC)
  | wrapper (own : RC) (kid : Comp)
  | system (c : RC) (kids : Comps)
  | multi (c : RC) (kids : Comps)
/-- a list of modules -/
inductive Comps where
  | nil
  | cons (k : Comp) (ks : Comps)
end

/-- `isinstance(c, RandomComponent)` -/
def Comp.isRandom : Comp → Bool
  | .plain => false
  | _ => true

def Comps.length : Comps → ℕ
  | .nil => 0
  | .cons _ ks => ks.length + 1

/-- number of random sub-generators -/
def Comps.randoms : Comps → ℕ
  | .nil => 0
  | .cons k ks => (if k.isRandom then 1 else 0) + ks.randoms

mutual
/-- `seed(sub)`: of a plain random component; of a wrapper (passes the sequence on, keeps its own generator); of a physical
system (own generator, then `spawn(len(components))`); of a multiple / switched reference generator (own generator, then
one child per random sub-generator). -/
def Comp.seed (s : SeedSeq) : Comp → Comp
  | .plain => .plain
  | .rand _ => .rand (RC.seed s)
  | .wrapper own kid => .wrapper own (kid.seed s)
  | .system _ kids =>
    let c := RC.seed s
    .system { c with seq := { c.seq with spawned := c.seq.spawned + kids.length } }
      (kids.seedAll s.entropy s.key c.seq.spawned)
  | .multi _ kids =>
    let c := RC.seed s
    .multi { c with seq := { c.seq with spawned := c.seq.spawned + kids.randoms } }
      (kids.seedRandoms s.entropy s.key c.seq.spawned)
/-- `for component, sub in zip(components, seq.spawn(len(components)))`: child `n+i` for the i-th component, random or not -/
def Comps.seedAll (e : ℕ) (key : List ℕ) (n : ℕ) : Comps → Comps
  | .nil => .nil
  | .cons k ks => .cons (if k.isRandom then k.seed ⟨e, key ++ [n], 0⟩ else k) (ks.seedAll e key (n + 1))
/-- one child per random component only -/
def Comps.seedRandoms (e : ℕ) (key : List ℕ) (n : ℕ) : Comps → Comps
  | .nil => .nil
  | .cons k ks =>
    if k.isRandom then .cons (k.seed ⟨e, key ++ [n], 0⟩) (ks.seedRandoms e key (n + 1))
    else .cons k (ks.seedRandoms e key n)
end

/-- `ElectricMotorEnvironment._seed` (core.py 373–385) on the list of modules and callbacks. -/
def envSeed (entropy : ℕ) (cs : Comps) : Comps := cs.seedAll entropy [] 0

mutual
/-- all current generators below a module, except those of wrappers, which are never seeded -/
def Comp.streams : Comp → List Stream
  | .plain => []
  | .rand c => [c.gen]
  | .wrapper _ kid => kid.streams
  | .system c kids => c.gen :: kids.streams
  | .multi c kids => c.gen :: kids.streams
def Comps.streams : Comps → List Stream
  | .nil => []
  | .cons k ks => k.streams ++ ks.streams
end

mutual
/-- the generators of wrappers -/
def Comp.wrapperStreams : Comp → List Stream
  | .plain => []
  | .rand _ => []
  | .wrapper own kid => own.gen :: kid.wrapperStreams
  | .system _ kids => kids.wrapperStreams
  | .multi _ kids => kids.wrapperStreams
def Comps.wrapperStreams : Comps → List Stream
  | .nil => []
  | .cons k ks => k.wrapperStreams ++ ks.wrapperStreams
end

mutual
/-- a reset: every random component draws its next generator (all `next_generator` calls of the `reset` methods; components
whose reset does not call it do not draw random numbers, so that drawing it anyway changes nothing; the Wiener process draws
its initial reference before it calls `next_generator`, see `GEM.Refs.subReset`) -/
def Comp.next : Comp → Comp
  | .plain => .plain
  | .rand c => .rand c.next
  | .wrapper own kid => .wrapper own.next kid.next
  | .system c kids => .system c.next kids.next
  | .multi c kids => .multi c.next kids.next
def Comps.next : Comps → Comps
  | .nil => .nil
  | .cons k ks => .cons k.next ks.next
end

mutual
/-- forget all generators: the shape of the module tree -/
def Comp.shape : Comp → Comp
  | .plain => .plain
  | .rand _ => .rand ⟨SeedSeq.new 0, ⟨0, []⟩⟩
  | .wrapper _ kid => .wrapper ⟨SeedSeq.new 0, ⟨0, []⟩⟩ kid.shape
  | .system _ kids => .system ⟨SeedSeq.new 0, ⟨0, []⟩⟩ kids.shape
  | .multi _ kids => .multi ⟨SeedSeq.new 0, ⟨0, []⟩⟩ kids.shape
def Comps.shape : Comps → Comps
  | .nil => .nil
  | .cons k ks => .cons k.shape ks.shape
end

end GEM.Seeding
