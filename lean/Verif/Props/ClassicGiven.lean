import Verif.Props.ClassicMake

/-!
# C134: stages handed over to the factory of the classic controllers
-/

namespace GEM.Props

open GEM GEM.Registry GEM.ClassicMake

local instance {ε α : Type} [DecidableEq ε] [DecidableEq α] : DecidableEq (Except ε α)
  | .ok a, .ok b => if h : a = b then isTrue (h ▸ rfl) else isFalse fun e => h (Except.ok.inj e)
  | .error a, .error b => if h : a = b then isTrue (h ▸ rfl) else isFalse fun e => h (Except.error.inj e)
  | .ok _, .error _ => isFalse (by simp)
  | .error _, .ok _ => isFalse (by simp)

/-- The stages of the automatic design, handed over. -/
def handedOver (s : Setting) (d : Defaults) : Except Err (Key × List Item) :=
  match design s d with
  | .ok (_, stages) => makeGiven s d (.list stages)
  | .error e => .error e

def sameEntry (s : Setting) (m : Motor) : Bool :=
  match Registry.make m.envId with
  | none => false
  | some (_, d) => match ClassicMake.make s d with
    | .error _ => true
    | .ok x => handedOver s d = .ok x

theorem same_entries : ∀ m ∈ motors, ∀ s ∈ classicSettings, m.type ≠ .shuntDc →
    ¬ (m.control = .current ∧ (m.type = .scim ∨ m.type = .dfim)) → sameEntry s m = true := by
  decide +kernel

/-- C134, the part that holds: a user who hands over the stages that `Controller.make` would choose gets the controller that it makes
without them; not for shunt motors and for current control of induction motors. -/
theorem c134_partial (s : Setting) (m : Motor) (name : String) (d : Defaults) (hd : Registry.make m.envId = some (name, d))
    (h1 : m.type ≠ .shuntDc) (h2 : ¬ (m.control = .current ∧ (m.type = .scim ∨ m.type = .dfim))) (x : Key × List Item)
    (hx : ClassicMake.make s d = .ok x) : ∃ key stages, design s d = .ok (key, stages) ∧ makeGiven s d (.list stages) = .ok x := by
  have h := same_entries m (mem_motors m) s (mem_classicSettings s) h1 h2
  simp only [sameEntry, hd, hx, handedOver] at h
  cases hk : design s d with
  | error e => simp [hk] at h
  | ok y => exact ⟨y.1, y.2, rfl, by simpa [hk] using h⟩

/-- C134 is violated by shunt motors: whatever stages are handed over, `make` raises. -/
theorem c134_shunt_violated (s : Setting) (m : Motor) (h : m.type = .shuntDc) (name : String) (d : Defaults)
    (hd : Registry.make m.envId = some (name, d)) (g : Given) :
    makeGiven s d g = .error (if s.handle = .opaque then .attribute else .generic) := by
  have key : ∀ m ∈ motors, m.type = .shuntDc → ∀ x ∈ Registry.make m.envId, plainDc x.2 = false ∧ isDc x.2.motor = true := by
    decide +kernel
  obtain ⟨h1, h2⟩ := key m (mem_motors m) h (name, d) hd
  simp only at h1 h2
  simp only [makeGiven, find, h1, h2, attr, Bool.false_eq_true, if_false, if_true]
  split_ifs <;> rfl

/-- C134 is violated in current control of squirrel cage motors with continuous actions: the controller that `make` would choose comes only
from lists with a second entry of length one, which it does not use; with the stages of the automatic design `make` raises. -/
theorem c134_scim_violated (s : Setting) (hs : s.handle ≠ .opaque) (hc : s.npComplex = true) (name : String) (d : Defaults)
    (hd : Registry.make (Motor.envId ⟨.scim, .current, .continuous⟩) = some (name, d)) :
    (∃ stages, ClassicMake.make s d = .ok (.imFoc, stages)) ∧ design s d = .ok (.imFoc, [.list [⟨.pi, none⟩, ⟨.pi, none⟩]]) ∧
    makeGiven s d (.list [.list [⟨.pi, none⟩, ⟨.pi, none⟩]]) = .error .index ∧
    ∀ l, find s d (.list l) = .ok (.imFoc, l) ↔ ∃ x y, l = [x, y] ∧ y.length = 1 := by
  have key : ∀ x ∈ Registry.make (Motor.envId ⟨.scim, .current, .continuous⟩), ("i_sq" ∈ refStates x.2 ∧ plainDc x.2 = false ∧
      isDc x.2.motor = false ∧ isSync x.2.motor = false) ∧ ∀ s ∈ classicSettings, s.handle ≠ .opaque → s.npComplex = true →
      ClassicMake.make s x.2 = .ok (.imFoc, [.list [⟨.pi, some .induction⟩, ⟨.pi, some .induction⟩]]) ∧
      design s x.2 = .ok (.imFoc, [.list [⟨.pi, none⟩, ⟨.pi, none⟩]]) ∧
      makeGiven s x.2 (.list [.list [⟨.pi, none⟩, ⟨.pi, none⟩]]) = .error .index := by
    decide +kernel
  obtain ⟨⟨k1, k2, k3, k4⟩, k⟩ := key (name, d) hd
  obtain ⟨h1, h2, h3⟩ := k s (mem_classicSettings s) hs hc
  refine ⟨⟨_, h1⟩, h2, h3, fun l => ?_⟩
  simp only at k1 k2 k3 k4
  have : find s d (.list l) = .ok (findAc d .imFoc .imCascadedFoc l, l) := by
    simp only [find, k2, k3, k4, attr, hs, Bool.false_eq_true, if_false]
    rfl
  rw [this]
  simp only [Except.ok.injEq, Prod.mk.injEq, and_true]
  match l with
  | [] => simp [findAc]
  | [_] => simp [findAc]
  | [x, y] => simp [findAc, k1]
  | _ :: _ :: _ :: _ => simp [findAc]

/-- The name of a base controller, its dictionary and the list with it mean the same for direct current motors; lists of two stages make
cascades; with one stage per current the externally excited motor gets a controller of the currents. -/
example : (∃ x, Registry.make "Cont-CC-SeriesDc-v0" = some x ∧
      makeGiven ⟨.bare, false, .interpolate⟩ x.2 (.name .pi) = .ok (.base .pi, [.dict ⟨.pi, some .armature⟩])) ∧
    findDc (.name .pi) = findDc (.dict ⟨.pi, none⟩) ∧ findDc (.name .pi) = findDc (.list [.dict ⟨.pi, none⟩]) ∧
    findDc (.list [.list [⟨.pi, none⟩], .list [⟨.pi, none⟩]]) = .ok (.base .pi, [.list [⟨.pi, none⟩], .list [⟨.pi, none⟩]]) := by
  have h : ((Registry.make "Cont-CC-SeriesDc-v0").map fun x => makeGiven ⟨.bare, false, .interpolate⟩ x.2 (.name .pi))
      = some (.ok (.base .pi, [.dict ⟨.pi, some .armature⟩])) := by decide +kernel
  rw [Option.map_eq_some_iff] at h
  exact ⟨h, by decide +kernel⟩

end GEM.Props
