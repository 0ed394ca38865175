import Verif.Model.Assembly
import Verif.Model.Wrappers

/-!
# Environments with physical system wrappers  (`src/gym_electric_motor/core.py` 225–292, `physical_system_wrapper.py`)

The environment of `Model/Assembly.lean` around a physical system of which only the interface is known, and the wrappers of
`Model/Wrappers.lean` as changes of such systems.

Not part of it: callbacks that change the modules, constraints that are user functions.
-/

namespace GEM.Assembly

open GEM GEM.Core GEM.Sys GEM.Refs GEM.Reward GEM.Utils GEM.Constr GEM.Wrap

/-- A physical system as the environment sees it: what the wrappers see of it, `k`, and the effect of `seed`. -/
structure Plant (σ A : Type) where
  ps : PSys σ A
  steps : σ → ℕ
  seed : ℕ → σ → σ

variable {σ ε A B τ : Type}

/-- A wrapper without attributes that change: `k` (physical_system_wrapper.py 14–16) and `seed` (108–111) are those of the inner
system. -/
def Plant.same (p : Plant σ A) (ps : PSys σ B) : Plant σ B := ⟨ps, p.steps, p.seed⟩

/-- A wrapper with attributes `ε`: `k` (physical_system_wrapper.py 14–16) and `seed` (108–111) are those of the inner system. -/
def Plant.under (p : Plant σ A) (ps : PSys (σ × ε) B) : Plant (σ × ε) B :=
  ⟨ps, fun st => p.steps st.1, fun n st => seedWrapper (fun s k => p.seed k s) st n⟩

/-- The arguments of an environment; the physical system `plant` is already wrapped (core.py 266–267).  The other fields as in
`Setup`. -/
structure WSetup (σ A τ : Type) where
  plant : Plant σ A
  gen : RefGen τ ℝ
  seedRef : ℕ → τ → τ
  lower : String → String
  allStates : String
  wse : Wse String
  limited : List String
  squares : List (List String)
  filter : Option (List String)
  nCb : ℕ

/-- A physical system that is announced but never called. -/
def silent (A : Type) : Parts ℝ Unit Unit A Unit Unit Unit where
  solverT _ := 0
  solverY _ := ()
  integrate _ _ _ := ()
  setInitial _ _ _ := ()
  setAction c _ _ := (c, .ok [])
  convert c _ _ := (c, .ok [])
  iSup _ _ := .ok 0
  getVoltage s _ _ := (s, [])
  convReset c := (c, [])
  supplyReset s := (s, [])

/-- What reference generator, monitor, reward function and state filter are told about the wrapped system (core.py 268–278): names,
limits and state space.  The system itself is not part of that. -/
def WSetup.announced (c : WSetup σ A τ) : Setup Unit Unit A Unit Unit Unit Unit τ where
  p := silent A
  f := { iIn := fun _ => [], action := fun _ a => a, loopU := fun _ _ => .ok (), lastU := fun _ _ => .ok (),
         report := fun _ _ _ _ => .ok [] }
  rep _ _ _ := .ok []
  tau := c.plant.ps.tau
  limits := c.plant.ps.limits
  names := c.plant.ps.names
  low := c.plant.ps.low
  high := c.plant.ps.high
  start g := (g, ())
  seedSystem _ g := g
  gen := c.gen
  seedRef := c.seedRef
  lower := c.lower
  allStates := c.allStates
  wse := c.wse
  limited := c.limited
  squares := c.squares
  filter := c.filter
  nCb := c.nCb

/-- The modules of the environment, as `comps`. -/
noncomputable def wcomps (c : WSetup σ A τ) (w : Wse String) (m : Monitor (List ℝ) ℝ) (idx : List ℕ) :
    Comps (σ × τ) A (List ℝ) (List ℝ) (List ℝ) ℝ where
  seed n x := (c.plant.seed n x.1, c.seedRef n x.2)
  psReset x :=
    let r := c.plant.ps.reset x.1
    ((r.1, x.2), r.2)
  refReset x s :=
    let r := c.gen.reset x.2 s none
    ((x.1, r.1), r.2)
  rewReset x _ _ := x
  psK x := c.plant.steps x.1
  simulate x a :=
    let r := c.plant.ps.simulate x.1 a
    ((r.1, x.2), r.2)
  getRef x s :=
    let r := c.gen.getRef x.2 s
    ((x.1, r.1), r.2)
  check x s := (x, m.check s)
  reward x s r _ _ d := (x, number (Reward.reward w s r d))
  refObs x s :=
    let r := c.gen.getObs x.2 s
    ((x.1, r.1), r.2)
  observe s := take s idx
  nCb := c.nCb
  onCb _ _ x := x

/-- The environment loop of the environment with the wrapped system. -/
noncomputable def wbuild (c : WSetup σ A τ) : Except Err (Comps (σ × τ) A (List ℝ) (List ℝ) (List ℝ) ℝ) :=
  (modules c.announced).map fun x => wcomps c x.1 x.2.1 x.2.2

variable {Y U S C P G : Type}

/-- The physical system of an environment without wrappers, with its random generators. -/
noncomputable def bare (c : Setup Y U A S C P G τ) (nominal : List ℝ) : Plant (St ℝ S C P × G) A where
  ps := {
    reset st :=
      let d := c.start st.2
      let r := reset c.p c.rep c.limits st.1 d.2
      ((r.1, d.1), r.2)
    simulate st a :=
      let r := simulate c.p c.f c.tau c.limits st.1 a
      ((r.1, st.2), r.2)
    names := c.names
    pos := enumPos c.names
    limits := c.limits
    nominal := nominal
    low := c.low
    high := c.high
    tau := c.tau }
  steps st := st.1.k
  seed n st := (st.1, c.seedSystem n st.2)

/-- The environment with another physical system. -/
def Setup.around (c : Setup Y U A S C P G τ) (p : Plant σ B) : WSetup σ B τ where
  plant := p
  gen := c.gen
  seedRef := c.seedRef
  lower := c.lower
  allStates := c.allStates
  wse := c.wse
  limited := c.limited
  squares := c.squares
  filter := c.filter
  nCb := c.nCb

end GEM.Assembly
