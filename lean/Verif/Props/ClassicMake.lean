import Verif.Model.ClassicMake
import Verif.Props.Registry
import Verif.Props.Loop

/-!
# C131, C132: factory and loops of the classic controllers
-/

namespace GEM.Props

open GEM GEM.Registry GEM.ClassicMake

/-! ## C131 -/

local instance {ε α : Type} [DecidableEq ε] [DecidableEq α] : DecidableEq (Except ε α)
  | .ok a, .ok b => if h : a = b then isTrue (h ▸ rfl) else isFalse fun e => h (Except.ok.inj e)
  | .error a, .error b => if h : a = b then isTrue (h ▸ rfl) else isFalse fun e => h (Except.error.inj e)
  | .ok _, .error _ => isFalse (by simp)
  | .error _, .ok _ => isFalse (by simp)

/-- `Controller.make` gives a controller whose actions have the shape of the environment's actions. -/
def ClassicServed (s : Setting) (d : Defaults) : Prop :=
  ∃ key stages, ClassicMake.make s d = .ok (key, stages) ∧ answer d key = .ok (space d)

/-- The combinations that work: direct current motors but the externally excited one always, with gymnasium 1.0 only torque and speed
control, the shunt motor never in current control; the externally excited one in torque and speed control, and in current control with continuous actions if the environment is
handed over without wrappers; permanently excited and reluctance synchronous motors in torque control and, with continuous actions, in
speed control, if the wrapper forwards attributes, with the default conversion only with an old numpy; squirrel cage motors with
continuous actions, an old numpy and an old gymnasium; EESM and DFIM never. -/
def classicTable (s : Setting) (m : Motor) : Bool :=
  match m.type, m.control, m.action with
  | .permExDc, .current, _ | .seriesDc, .current, _ => s.handle ≠ .opaque
  | .shuntDc, .current, _ => false
  | .permExDc, _, _ | .seriesDc, _, _ | .shuntDc, _, _ => true
  | .extExDc, .current, .continuous => s.handle = .bare
  | .extExDc, .current, .finite => false
  | .extExDc, _, _ => true
  | .pmsm, .current, _ | .synRm, .current, _ => false
  | .pmsm, .speed, .finite | .synRm, .speed, .finite => false
  | .pmsm, _, _ | .synRm, _, _ => s.handle ≠ .opaque ∧ (s.conversion ≠ .interpolate ∨ s.npComplex)
  | .scim, _, .continuous => s.handle ≠ .opaque ∧ s.npComplex
  | .scim, _, .finite => false
  | .eesm, _, _ | .dfim, _, _ => false

def classicSettings : List Setting :=
  [Handle.bare, .forwarding, .opaque].flatMap fun h => [true, false].flatMap fun n =>
    [Conversion.interpolate, .analytical, .online].map fun c => ⟨h, n, c⟩

theorem mem_classicSettings (s : Setting) : s ∈ classicSettings := by
  obtain ⟨h, n, c⟩ := s
  cases h <;> cases n <;> cases c <;> simp [classicSettings]

def classicServed (s : Setting) (d : Defaults) : Bool :=
  match ClassicMake.make s d with
  | .ok (key, _) => match answer d key with
    | .ok x => x = space d
    | .error _ => false
  | .error _ => false

theorem classicServed_iff (s : Setting) (d : Defaults) : classicServed s d = true ↔ ClassicServed s d := by
  unfold classicServed ClassicServed
  cases hm : ClassicMake.make s d with
  | error e => simp
  | ok x =>
    obtain ⟨key, stages⟩ := x
    cases ha : answer d key with
    | error e =>
      simp only [ha, Bool.false_eq_true, Except.ok.injEq, Prod.mk.injEq, false_iff]
      rintro ⟨k, st, ⟨rfl, rfl⟩, h⟩
      rw [ha] at h
      cases h
    | ok y =>
      simp only [ha, decide_eq_true_eq, Except.ok.injEq, Prod.mk.injEq]
      constructor
      · rintro rfl
        exact ⟨key, stages, ⟨rfl, rfl⟩, ha⟩
      · rintro ⟨k, st, ⟨rfl, rfl⟩, h⟩
        rw [ha] at h
        exact Except.ok.inj h

def tableEntry (s : Setting) (m : Motor) : Bool :=
  match Registry.make m.envId with
  | none => false
  | some (_, d) => classicServed s d == classicTable s m

theorem table_entries : ∀ m ∈ motors, ∀ s ∈ classicSettings, tableEntry s m = true := by decide +kernel

/-- C131, the part that holds: `Controller.make` serves a registered environment exactly in the cases of the table. -/
theorem c131_partial (s : Setting) (m : Motor) (name : String) (d : Defaults) (hd : Registry.make m.envId = some (name, d)) :
    ClassicServed s d ↔ classicTable s m = true := by
  have h := table_entries m (mem_motors m) s (mem_classicSettings s)
  rw [← classicServed_iff]
  simp only [tableEntry, hd, beq_iff_eq] at h
  rw [h]

/-- the environment of an id, with the controller made for it -/
def classicOf (s : Setting) (id : String) : Option (Except Err (Key × List Item)) :=
  (Registry.make id).map fun x => ClassicMake.make s x.2

/-- C131 is violated: in current control of synchronous motors the controller cannot be made, in no setting. -/
theorem c131_foc_violated (s : Setting) :
    ∀ id ∈ ["Cont-CC-PMSM-v0", "Finite-CC-PMSM-v0", "Cont-CC-SynRM-v0", "Finite-CC-SynRM-v0", "Cont-CC-EESM-v0", "Finite-CC-EESM-v0"],
      classicOf s id = some (.error .attribute) := by
  revert s
  have : ∀ s ∈ classicSettings,
      ∀ id ∈ ["Cont-CC-PMSM-v0", "Finite-CC-PMSM-v0", "Cont-CC-SynRM-v0", "Finite-CC-SynRM-v0", "Cont-CC-EESM-v0",
        "Finite-CC-EESM-v0"], classicOf s id = some (.error .attribute) := by
    decide +kernel
  exact fun s => this s (mem_classicSettings s)

/-- C131 is violated: the externally excited motor in current control with finite actions; synchronous motors in speed control with
finite actions, the EESM also in torque control; squirrel cage motors with finite actions. -/
theorem c131_make_violated (s : Setting) (h : s.handle ≠ .opaque) (hc : s.npComplex = true) :
    ∀ x ∈ [("Finite-CC-ExtExDc-v0", Err.type), ("Finite-SC-PMSM-v0", .type), ("Finite-SC-SynRM-v0", .type),
        ("Finite-SC-EESM-v0", .index), ("Finite-TC-EESM-v0", .assertion), ("Finite-CC-SCIM-v0", .index),
        ("Finite-TC-SCIM-v0", .index), ("Finite-SC-SCIM-v0", .index)],
      classicOf s x.1 = some (.error x.2) := by
  revert s
  have : ∀ s ∈ classicSettings, s.handle ≠ .opaque → s.npComplex = true →
      ∀ x ∈ [("Finite-CC-ExtExDc-v0", Err.type), ("Finite-SC-PMSM-v0", .type), ("Finite-SC-SynRM-v0", .type),
        ("Finite-SC-EESM-v0", .index), ("Finite-TC-EESM-v0", .assertion), ("Finite-CC-SCIM-v0", .index),
        ("Finite-TC-SCIM-v0", .index), ("Finite-SC-SCIM-v0", .index)],
      classicOf s x.1 = some (.error x.2) := by
    decide +kernel
  exact fun s => this s (mem_classicSettings s)

/-- C131 is violated: the controllers of the current do not accept shunt motors, around whose system the environment puts a wrapper. -/
theorem c131_shunt_violated (s : Setting) (h : s.handle ≠ .opaque) :
    ∀ id ∈ ["Cont-CC-ShuntDc-v0", "Finite-CC-ShuntDc-v0"], classicOf s id = some (.error .assertion) := by
  revert s
  have : ∀ s ∈ classicSettings, s.handle ≠ .opaque →
      ∀ id ∈ ["Cont-CC-ShuntDc-v0", "Finite-CC-ShuntDc-v0"], classicOf s id = some (.error .assertion) := by
    decide +kernel
  exact fun s => this s (mem_classicSettings s)

/-- C131 is violated for what `gem.make` returns: the externally excited motor in current control with continuous actions; with
gymnasium 1.0 all current control of direct current motors, and all three phase motors. -/
theorem c131_wrapped_violated (s : Setting) (h : s.handle ≠ .bare) :
    classicOf s "Cont-CC-ExtExDc-v0" = some (.error .attribute) ∧
    (s.handle = .opaque → ∀ id ∈ ["Cont-CC-SeriesDc-v0", "Cont-CC-PermExDc-v0", "Finite-CC-ShuntDc-v0", "Cont-TC-PMSM-v0",
      "Cont-SC-SynRM-v0", "Cont-TC-SCIM-v0", "Cont-SC-DFIM-v0", "Cont-SC-EESM-v0"], classicOf s id = some (.error .attribute)) := by
  revert s
  have : ∀ s ∈ classicSettings, s.handle ≠ .bare → classicOf s "Cont-CC-ExtExDc-v0" = some (.error .attribute) ∧
    (s.handle = .opaque → ∀ id ∈ ["Cont-CC-SeriesDc-v0", "Cont-CC-PermExDc-v0", "Finite-CC-ShuntDc-v0", "Cont-TC-PMSM-v0",
      "Cont-SC-SynRM-v0", "Cont-TC-SCIM-v0", "Cont-SC-DFIM-v0", "Cont-SC-EESM-v0"],
      classicOf s id = some (.error .attribute)) := by
    decide +kernel
  exact fun s => this s (mem_classicSettings s)

/-- controller and answer for an id: what the first call of `control` gives -/
def answerOf (s : Setting) (id : String) : Option (Except Err Space × Space) :=
  (Registry.make id).bind fun x => match ClassicMake.make s x.2 with
    | .ok (key, _) => some (answer x.2 key, space x.2)
    | .error _ => none

/-- C131 is violated: for EESM and DFIM controllers are made that cannot control: three voltages for the four of the EESM; three
voltages that are compared with the bounds of six; no controllers of the currents at all. -/
theorem c131_answer_violated (s : Setting) (h : s.handle ≠ .opaque) (hc : s.npComplex = true) :
    (∀ id ∈ ["Cont-TC-EESM-v0", "Cont-SC-EESM-v0"], answerOf s id = some (.ok (.box 3), .box 4)) ∧
    (∀ id ∈ ["Cont-CC-DFIM-v0", "Cont-TC-DFIM-v0", "Cont-SC-DFIM-v0"], answerOf s id = some (.error .value, .box 6)) ∧
    answerOf s "Finite-CC-DFIM-v0" = some (.error .attribute, .multi 2) ∧
    ∀ id ∈ ["Finite-TC-DFIM-v0", "Finite-SC-DFIM-v0"], answerOf s id = some (.error .generic, .multi 2) := by
  revert s
  have : ∀ s ∈ classicSettings, s.handle ≠ .opaque → s.npComplex = true →
      (∀ id ∈ ["Cont-TC-EESM-v0", "Cont-SC-EESM-v0"], answerOf s id = some (.ok (.box 3), .box 4)) ∧
      (∀ id ∈ ["Cont-CC-DFIM-v0", "Cont-TC-DFIM-v0", "Cont-SC-DFIM-v0"], answerOf s id = some (.error .value, .box 6)) ∧
      answerOf s "Finite-CC-DFIM-v0" = some (.error .attribute, .multi 2) ∧
      ∀ id ∈ ["Finite-TC-DFIM-v0", "Finite-SC-DFIM-v0"], answerOf s id = some (.error .generic, .multi 2) := by
    decide +kernel
  exact fun s => this s (mem_classicSettings s)

/-- stage `j` of entry `i` -/
def stageAt (stages : List Item) (i j : ℕ) : Option ClassicMake.Stage :=
  match stages[i]? with
  | some (.dict h) => if j = 0 then some h else none
  | some (.list l) => l[j]?
  | none => none

/-- The gains that the stage at a position needs, for what it controls. -/
def wantedGain (t : MotorType) (a : ActionType) : ℕ → ℕ → Option Gain :=
  match t, a with
  | .extExDc, _ => fun
    | 0, 0 => some .armature
    | 0, 1 => some .speedDc
    | 1, 0 => some .excitation
    | _, _ => none
  | .permExDc, _ | .seriesDc, _ | .shuntDc, _ => fun
    | 0, 0 => some .armature
    | 1, 0 => some .speedDc
    | _, _ => none
  | .scim, _ | .dfim, _ => fun
    | 0, 0 | 0, 1 => some .induction
    | 1, 0 => some .speedInduction
    | _, _ => none
  | .pmsm, .finite | .synRm, .finite | .eesm, .finite => fun
    | 3, 0 => some .speedFinite
    | _, _ => none
  | .pmsm, _ | .synRm, _ | .eesm, _ => fun
    | 0, 0 => some .d
    | 0, 1 => some .q
    | 1, 0 => some .speedSync
    | _, _ => none

/-- a stage with the gains it needs; on-off and three-point controllers have no gains -/
def stageFits (g : Option Gain) (h : ClassicMake.Stage) : Bool := if h.type.continuous then g.isSome && h.gain == g else h.gain == none

def stagesFit (t : MotorType) (a : ActionType) (stages : List Item) : Bool :=
  stages.zipIdx.all fun x => match x.1 with
    | .dict h => stageFits (wantedGain t a x.2 0) h
    | .list l => l.zipIdx.all fun y => stageFits (wantedGain t a x.2 y.2) y.1

theorem fits_at {t : MotorType} {a : ActionType} {stages : List Item} (h : stagesFit t a stages = true) {i j : ℕ} {x : ClassicMake.Stage}
    (hx : stageAt stages i j = some x) : stageFits (wantedGain t a i j) x = true := by
  unfold stagesFit at h
  rw [List.all_eq_true] at h
  unfold stageAt at hx
  split at hx
  · rename_i y e
    split at hx
    · rename_i hj
      have := h (.dict y, i) (List.mem_zipIdx_iff_getElem?.mpr e)
      cases hx
      rw [hj]
      exact this
    · cases hx
  · rename_i l e
    have := h (.list l, i) (List.mem_zipIdx_iff_getElem?.mpr e)
    rw [List.all_eq_true] at this
    exact this (x, j) (List.mem_zipIdx_iff_getElem?.mpr hx)
  · cases hx

def fitEntry (s : Setting) (m : Motor) : Bool :=
  match Registry.make m.envId with
  | none => false
  | some (_, d) => match ClassicMake.make s d with
    | .error _ => true
    | .ok (_, stages) => stagesFit m.type m.action stages

theorem fit_entries : ∀ m ∈ motors, ∀ s ∈ classicSettings, (m.type = .extExDc → s.handle = .bare) → fitEntry s m = true := by
  decide +kernel

/-- C131 (gains), the part that holds: every PI stage of a controller that is made gets the gains for the quantity it controls, and
on-off and three-point controllers get none; the externally excited motor only without wrappers. -/
theorem c131_gains_partial (s : Setting) (m : Motor) (he : m.type = .extExDc → s.handle = .bare) (name : String) (d : Defaults)
    (hd : Registry.make m.envId = some (name, d)) (key : Key) (stages : List Item)
    (hm : ClassicMake.make s d = .ok (key, stages)) (i j : ℕ) (x : ClassicMake.Stage) (hx : stageAt stages i j = some x) :
    (x.type.continuous = true → x.gain ≠ none ∧ x.gain = wantedGain m.type m.action i j) ∧
      (x.type.continuous = false → x.gain = none) := by
  have h := fit_entries m (mem_motors m) s (mem_classicSettings s) he
  simp only [fitEntry, hd, hm] at h
  have f := fits_at h hx
  unfold stageFits at f
  constructor
  · intro hc
    simp only [hc, if_true, Bool.and_eq_true, beq_iff_eq, Option.isSome_iff_ne_none] at f
    rw [f.2]
    exact ⟨f.1, rfl⟩
  · intro hc
    simpa [hc] using f

/-- C131 (gains) is violated for the externally excited motor in torque and speed control, for every environment that `gem.make`
returns: the controller of the excitation current gets the gains of the speed, the one of the speed keeps the gains 5 of the class. -/
theorem c131_gains_violated (s : Setting) (h : s.handle ≠ .bare) :
    ∀ id ∈ ["Cont-TC-ExtExDc-v0", "Cont-SC-ExtExDc-v0"],
      classicOf s id = some (.ok (.cascaded, [.list [⟨.pi, some .armature⟩, ⟨.pi, none⟩], .list [⟨.pi, some .speedDc⟩]])) := by
  revert s
  have : ∀ s ∈ classicSettings, s.handle ≠ .bare → ∀ id ∈ ["Cont-TC-ExtExDc-v0", "Cont-SC-ExtExDc-v0"],
      classicOf s id = some (.ok (.cascaded, [.list [⟨.pi, some .armature⟩, ⟨.pi, none⟩], .list [⟨.pi, some .speedDc⟩]])) := by
    decide +kernel
  exact fun s => this s (mem_classicSettings s)

/-- speed control of a series motor in every setting, current control not with gymnasium 1.0, and the gains of a bare environment -/
example :
    classicOf ⟨.opaque, false, .interpolate⟩ "Cont-SC-SeriesDc-v0"
      = some (.ok (.cascaded, [.dict ⟨.pi, some .armature⟩, .dict ⟨.pi, some .speedDc⟩])) ∧
    classicOf ⟨.opaque, false, .interpolate⟩ "Cont-CC-SeriesDc-v0" = some (.error .attribute) ∧
    classicOf ⟨.bare, false, .interpolate⟩ "Cont-SC-ExtExDc-v0"
      = some (.ok (.cascaded, [.list [⟨.pi, some .armature⟩, ⟨.pi, some .speedDc⟩], .list [⟨.pi, some .excitation⟩]])) ∧
    classicOf ⟨.forwarding, false, .analytical⟩ "Cont-SC-PMSM-v0"
      = some (.ok (.cascadedFoc, [.list [⟨.pi, some .d⟩, ⟨.pi, some .q⟩], .list [⟨.pi, some .speedSync⟩]])) := by
  decide +kernel

/-! ## C132 -/

open GEM.Run

variable {σ κ o a : Type}

/-- the observation the last step has given, also if the environment has been reset since -/
def lastStepObs (start : Option o) : List (Run.Ev o) → Option o
  | [] => start
  | .envReset _ :: l => lastStepObs start l
  | .ctlReset :: l => lastStepObs start l
  | .step _ x _ :: l => lastStepObs (some x) l

theorem exampleLoop_seen (p : Run.Parts σ κ o a) : ∀ (n : ℕ) (env : σ) (ctl : κ) (obs0 : o) (before after : List (Run.Ev o)) (seen obs : o)
    (ended : Bool), exampleLoop p n env ctl obs0 = before ++ .step seen obs ended :: after →
    lastStepObs (some obs0) before = some seen := by
  intro n
  induction n with
  | zero => intro _ _ _ before after seen obs ended h; simp [exampleLoop] at h
  | succ n ih =>
    intro env ctl obs0 before after seen obs ended h
    simp only [exampleLoop] at h
    split at h
    · match before, h with
      | [], h =>
        simp only [List.nil_append, List.cons.injEq, Run.Ev.step.injEq] at h
        rw [← h.1.1]; rfl
      | [x], h => simp at h
      | [x, y], h => simp at h
      | x :: y :: z :: l, h =>
        simp only [List.cons_append, List.cons.injEq] at h
        obtain ⟨rfl, rfl, rfl, h⟩ := h
        simp only [lastStepObs]
        exact ih _ _ _ _ _ _ _ _ h
    · match before, h with
      | [], h =>
        simp only [List.nil_append, List.cons.injEq, Run.Ev.step.injEq] at h
        rw [← h.1.1]; rfl
      | x :: l, h =>
        simp only [List.cons_append, List.cons.injEq] at h
        obtain ⟨rfl, h⟩ := h
        simp only [lastStepObs]
        exact ih _ _ _ _ _ _ _ _ h

theorem lastObs_append (start : Option o) (l m : List (Run.Ev o)) : lastObs start (l ++ m) = lastObs (lastObs start l) m := by
  induction l generalizing start with
  | nil => rfl
  | cons x l ih => cases x <;> exact ih _

theorem lastStepObs_append (start : Option o) (l m : List (Run.Ev o)) :
    lastStepObs start (l ++ m) = lastStepObs (lastStepObs start l) m := by
  induction l generalizing start with
  | nil => rfl
  | cons x l ih => cases x <;> exact ih _

/-- C132, the part that holds: within an episode, the controller of the examples gets what the environment has returned last: the
observation of the step before, in the very first step the one of the reset. -/
theorem c132_partial (p : Run.Parts σ κ o a) (n : ℕ) (env : σ) (ctl : κ) (before after : List (Run.Ev o)) (x : Run.Ev o) (seen obs : o)
    (ended : Bool) (h : example_ p n env ctl = before ++ x :: .step seen obs ended :: after) (hx : x ≠ .ctlReset) :
    lastObs none (before ++ [x]) = some seen := by
  match before, h with
  | [], h =>
    simp only [example_, List.nil_append, List.cons.injEq] at h
    obtain ⟨rfl, h'⟩ := h
    exact exampleLoop_seen p n _ _ _ [] _ _ _ _ h'
  | y :: l, h =>
    simp only [example_, List.cons_append, List.cons.injEq] at h
    obtain ⟨rfl, h⟩ := h
    have key := exampleLoop_seen p n _ _ _ (l ++ [x]) after seen obs ended (by simpa using h)
    rw [lastStepObs_append] at key
    rw [lastObs_append]
    cases x with
    | step s' o' e' => exact key
    | ctlReset => exact absurd rfl hx
    | envReset o' =>
      exfalso
      revert h
      have : ∀ (n : ℕ) (env : σ) (ctl : κ) (obs0 : o) (l : List (Run.Ev o)),
          exampleLoop p n env ctl obs0 ≠ l ++ .envReset o' :: .step seen obs ended :: after := by
        intro n
        induction n with
        | zero => intro _ _ _ l h; simp [exampleLoop] at h
        | succ n ih =>
          intro env ctl obs0 l h
          simp only [exampleLoop] at h
          split at h
          · match l, h with
            | [], h => simp at h
            | [_], h => simp at h
            | [_, _], h => simp at h
            | x :: y :: z :: l, h =>
              simp only [List.cons_append, List.cons.injEq] at h
              exact ih _ _ _ _ h.2.2.2
          · match l, h with
            | [], h => simp at h
            | x :: l, h =>
              simp only [List.cons_append, List.cons.injEq] at h
              exact ih _ _ _ _ h.2
      exact this _ _ _ _ _

/-- C132 is violated at the start of every episode but the first one: the controller acts on the last observation of the episode
before, whatever the reset has returned. -/
theorem c132_violated (p : Run.Parts σ κ o a) (n : ℕ) (env : σ) (ctl : κ) (before after : List (Run.Ev o)) (s last fresh seen obs : o)
    (e ended : Bool)
    (h : example_ p n env ctl = before ++ .step s last e :: .envReset fresh :: .ctlReset :: .step seen obs ended :: after) :
    seen = last := by
  match before, h with
  | [], h => simp [example_] at h
  | y :: l, h =>
    simp only [example_, List.cons_append, List.cons.injEq] at h
    obtain ⟨rfl, h⟩ := h
    have key := exampleLoop_seen p n _ _ _ (l ++ [.step s last e, .envReset fresh, .ctlReset]) after seen obs ended (by simpa using h)
    rw [lastStepObs_append] at key
    simpa [lastStepObs] using key.symm

/-- an environment that counts, starts at 0 and ends at 3: the reset returns 0, the controller sees 3 -/
example :
    example_ (⟨fun _ => (0, 0), fun s _ => (s + 1, s + 1, s + 1 == 3), id, fun k _ => (k, ())⟩ : Run.Parts ℕ Unit ℕ Unit) 5 7 ()
      = [.envReset 0, .step 0 1 false, .step 1 2 false, .step 2 3 true, .envReset 0, .ctlReset, .step 3 1 false, .step 1 2 false] := by
  decide +kernel

end GEM.Props
