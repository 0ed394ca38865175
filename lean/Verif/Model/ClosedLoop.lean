import Verif.Model.Env
import Verif.Model.Loop
import Verif.Model.OperatingPoint

/-!
# Controllers in the loop with an environment  (`src/gem_controllers/gem_controller.py`, `gem_adapter.py`)

`control_environment` with the exceptions of its parts, on the environment of Model/Env.lean; the adapter between environment and
controller; the cascades of current, torque and speed controllers.  Rendering, the block diagram and the plots are left out.
-/

namespace GEM.Closed

open GEM GEM.Core GEM.Ctl

/-! ## `control_environment` -/

/-- A `GemController` (gem_controller.py 123–141): `o` are observations, `A` actions. -/
structure Controller (κ o A : Type) where
  reset : κ → κ
  control : κ → o → Call κ A

variable {σ κ A S R O K : Type} [LE K] [One K] [DecidableLE K]

/-- The body of the loop, `n` times (gem_controller.py 159–171).  `seeds i` is the entropy that the operating system provides for the
i-th `env.reset()`; `count` is `current_episode_length`.  The exception of a part ends the loop; a step that the environment rejects is
an AssertionError. -/
def loop (C : Comps σ A S R O K) (q : Controller κ (S × O) A) (limit : Option ℕ) (seeds : ℕ → ℕ) :
    ℕ → ℕ → Env σ A S R O K → κ → S × O → ℕ → Call (Env σ A S R O K × κ) (List (Run.Ev (S × O)))
  | 0, _, env, ctl, _, _ => ((env, ctl), .ok [])
  | n + 1, i, env, ctl, obs, count =>
    let c := q.control ctl obs
    match c.2 with
    | .error e => ((env, c.1), .error e)
    | .ok a =>
      let s := env.step C a
      match s.2 with
      | .rejected => ((s.1, c.1), .error .assertion)
      | .raised e => ((s.1, c.1), .error e)
      | .done r =>
        if (r.terminated || r.truncated) || Run.reached limit count then
          let x := s.1.reset C (seeds i)
          match x.2 with
          | .error e => ((x.1, c.1), .error e)
          | .ok o =>
            let rest := loop C q limit seeds n (i + 1) x.1 (q.reset c.1) o (0 + 1)
            (rest.1, rest.2.map fun l => .step obs r.obs (r.terminated || r.truncated) :: .envReset o :: .ctlReset :: l)
        else
          let rest := loop C q limit seeds n i s.1 c.1 r.obs (count + 1)
          (rest.1, rest.2.map fun l => .step obs r.obs (r.terminated || r.truncated) :: l)

/-- `control_environment` (gem_controller.py 144–173) -/
def controlEnvironment (C : Comps σ A S R O K) (q : Controller κ (S × O) A) (limit : Option ℕ) (seeds : ℕ → ℕ) (n : ℕ)
    (env : Env σ A S R O K) (ctl : κ) : Call (Env σ A S R O K × κ) (List (Run.Ev (S × O))) :=
  let x := env.reset C (seeds 0)
  match x.2 with
  | .error e => ((x.1, ctl), .error e)
  | .ok o =>
    let rest := loop C q limit seeds n 1 x.1 (q.reset ctl) o 0
    (rest.1, rest.2.map fun l => .envReset o :: .ctlReset :: l)

/-! ## Cascades -/

/-- A controller behind the adapter: from the state and the references, in physical units, to the voltages. -/
structure Inner (κ : Type) (m k j : ℕ) where
  reset : κ → κ
  control : κ → (Fin m → ℝ) → (Fin k → ℝ) → Call κ (Fin j → ℝ)

/-- An operation point selection (operation_point_selection.py 4–33; `reset` is the one of stage.py 15–17 or that of the subclass). -/
structure Ops (σ : Type) (m n : ℕ) where
  reset : σ → σ
  select : σ → (Fin m → ℝ) → ℝ → Call σ (Fin n → ℝ)

variable {τ : Type} {m n k j : ℕ}

/-- current control: `control` and `reset` of the `PICurrentController` (pi_current_controller.py 179–197) -/
noncomputable def currentInner (T : (Fin m → ℝ) → (Fin n → ℝ) → (Fin j → ℝ)) : Inner (Current n m ℝ) m n j :=
  ⟨Current.reset, fun c s r => c.controlTop T s r⟩

/-- torque control: `control` and `reset` of the `TorqueController` (torque_controller.py 137–164); the clipping stage keeps nothing -/
noncomputable def torqueInner (T : (Fin m → ℝ) → (Fin n → ℝ) → (Fin j → ℝ)) (ops : Ops τ m n) (clipping : Clip n ℝ) :
    Inner (τ × Current n m ℝ) m 1 j :=
  ⟨fun st => (ops.reset st.1, st.2.reset), fun st s r => torqueControl T ops.select clipping st s (r 0)⟩

/-- speed control: `control` and `reset` of the `PISpeedController` (pi_speed_controller.py 127–150) above a torque controller -/
noncomputable def speedInner (I : Inner κ m 1 j) : Inner (Speed m ℝ × κ) m 1 j where
  reset st := (st.1.reset, I.reset st.2)
  control st s r :=
    let t := st.1.control s r
    match t.2 with
    | .error e => ((t.1, st.2), .error e)
    | .ok x =>
      let c := I.control st.2 s x
      ((t.1, c.1), c.2)

/-! ## Operation points of the DC motors -/

/-- series_dc_ops.py 25–36; `nan` counts as exception here -/
noncomputable def seriesOps (l : ℝ) : Ops Unit m 1 :=
  ⟨id, fun _ _ t => ((), match Ops.series l t with | some i => .ok (fun _ => i) | none => .error .value)⟩

/-- shunt_dc_ops.py 66–107; `e` is the index of the exciting current -/
noncomputable def shuntOps (mp : Motor.DcParams ℝ) (iaLimit ieLimit margin : ℝ) (e : Fin m) : Ops Unit m 1 :=
  ⟨id, fun _ s t => ((), .ok fun _ => Ops.shuntTuned mp iaLimit ieLimit margin (s e) t)⟩

/-- extex_dc_ttc.py 59–99 -/
noncomputable def extExOps (mp : Motor.DcParams ℝ) (e : Fin m) : Ops Unit m 2 :=
  ⟨id, fun _ s t => ((), .ok ![(Ops.extEx mp (s e) t).1, (Ops.extEx mp (s e) t).2])⟩

/-- permex_dc_ops.py 55–91 -/
noncomputable def permExOps (psi : ℝ) : Ops Unit m 1 := ⟨id, fun _ _ t => ((), .ok fun _ => Ops.permEx psi t)⟩

/-! ## Adapter -/

/-- an array of known length -/
def vec (n : ℕ) (l : List ℝ) : Fin n → ℝ := fun i => l.getD i 0

/-- `GymElectricMotorAdapter` with tuned stages (gem_adapter.py 70–97, 122–126): `limits` and `refLimits` are the limits of the states
and of the references, `out` is the output stage.  Arrays of another length than the limits are a ValueError (arrays of length 1, which
numpy would broadcast, are not treated separately). -/
noncomputable def adapter (limits : Fin m → ℝ) (refLimits : Fin k → ℝ) (I : Inner κ m k j) (out : (Fin j → ℝ) → Except Err A) :
    Controller κ (List ℝ × List ℝ) A where
  reset := I.reset
  control st o :=
    if o.1.length = m ∧ o.2.length = k then
      let x := inputStage limits refLimits (vec m o.1) (vec k o.2)
      let c := I.control st x.1 x.2
      (c.1, c.2.bind out)
    else (st, .error .value)

/-- the continuous output stage -/
noncomputable def contOut (limits : Fin j → ℝ) (u : Fin j → ℝ) : Except Err (List ℝ) := .ok (List.ofFn (contOutput limits u))

/-- the discrete output stage, for environments whose actions are numbers -/
noncomputable def discOne (sp : ActionSpace) (ranges : Fin j → ℝ × ℝ) (u : Fin j → ℝ) : Except Err ℕ :=
  match discOutput sp (List.ofFn ranges) (List.ofFn u) with
  | .ok (.one a) => .ok a
  | .ok (.many _) => .error .type
  | .error e => .error e

/-- the discrete output stage, for environments whose actions are arrays -/
noncomputable def discMany (sp : ActionSpace) (ranges : Fin j → ℝ × ℝ) (u : Fin j → ℝ) : Except Err (List ℕ) :=
  match discOutput sp (List.ofFn ranges) (List.ofFn u) with
  | .ok (.many a) => .ok a
  | .ok (.one _) => .error .type
  | .error e => .error e

end GEM.Closed
