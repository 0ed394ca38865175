import Verif.Model.Registry
import Verif.Props.Assembly

/-!
# The registered environments (C115, C116)

`Motor` names an environment for every motor, control task and kind of actions; the classes of these environments, with their default
arguments, control what the name says and always answer.
-/

set_option linter.unusedSectionVars false

namespace GEM.Props

noncomputable section

open GEM GEM.Registry

/-! ## Names -/

/-- The states that a control task is about. -/
def controlled : MotorType → ControlType → List String
  | _, .speed => ["omega"]
  | _, .torque => ["torque"]
  | .permExDc, .current | .seriesDc, .current => ["i"]
  | .shuntDc, .current => ["i_a"]
  | .extExDc, .current => ["i_a", "i_e"]
  | .eesm, .current => ["i_sd", "i_sq", "i_e"]
  | _, .current => ["i_sd", "i_sq"]

/-- All combinations. -/
def motors : List Motor :=
  [MotorType.permExDc, .extExDc, .seriesDc, .shuntDc, .eesm, .dfim, .scim, .pmsm, .synRm].flatMap fun t =>
    [ControlType.speed, .torque, .current].flatMap fun c => [ActionType.continuous, .finite].map fun a => ⟨t, c, a⟩

theorem mem_motors (m : Motor) : m ∈ motors := by
  obtain ⟨t, c, a⟩ := m
  cases t <;> cases c <;> cases a <;> simp [motors]

/-- default converters of the motors: one, or one per winding -/
def converterOf : MotorType → ConvArg
  | .permExDc | .seriesDc | .shuntDc => .single .four
  | .extExDc => .multi [.four, .four]
  | .eesm => .multi [.b6, .four]
  | .dfim => .multi [.b6, .b6]
  | .scim | .pmsm | .synRm => .single .b6

/-- a margin between 0 and 1 -/
def MarginOk : Option (ℚ × ℚ) → Prop
  | none => True
  | some (a, b) => 0 ≤ a ∧ a ≤ 1 ∧ 0 ≤ b ∧ b ≤ 1

instance (m : Option (ℚ × ℚ)) : Decidable (MarginOk m) := by
  unfold MarginOk
  split <;> infer_instance

/-- The default arguments belong to the motor, the control task and the kind of actions. -/
structure Matches (m : Motor) (d : Defaults) : Prop where
  motor : d.motor = m.type
  action : d.action = m.action
  references : d.references.list.map (·.state) = controlled m.type m.control
  weights : d.weights.map Prod.fst = controlled m.type m.control
  positive : ∀ w ∈ d.weights, 0 < w.2
  total : (d.weights.map Prod.snd).sum = 1

/-- The default arguments fit together. -/
structure Fitting (d : Defaults) : Prop where
  converter : d.converter = converterOf d.motor
  distinct : (d.weights.map Prod.fst).Nodup
  states : (d.references.list.map (·.state)).Nodup
  known : ∀ n ∈ d.weights.map Prod.fst ++ d.references.list.map (·.state) ++ d.limited ++ d.squares.flatten, n ∈ stateNames d.motor
  margins : ∀ g ∈ d.references.list, MarginOk g.margin

def goodEntry (m : Motor) : Bool :=
  match make m.envId with
  | none => false
  | some (_, d) => decide ((d.motor = m.type ∧ d.action = m.action ∧ d.references.list.map (·.state) = controlled m.type m.control ∧
      d.weights.map Prod.fst = controlled m.type m.control ∧ (∀ w ∈ d.weights, 0 < w.2) ∧ (d.weights.map Prod.snd).sum = 1) ∧
      d.converter = converterOf d.motor ∧ (d.weights.map Prod.fst).Nodup ∧ (d.references.list.map (·.state)).Nodup ∧
      (∀ n ∈ d.weights.map Prod.fst ++ d.references.list.map (·.state) ++ d.limited ++ d.squares.flatten, n ∈ stateNames d.motor) ∧
      ∀ g ∈ d.references.list, MarginOk g.margin)

theorem good_entries : ∀ m ∈ motors, goodEntry m = true := by decide +kernel

theorem entry_of (m : Motor) : ∃ name d, make m.envId = some (name, d) ∧ Matches m d ∧ Fitting d := by
  have h := good_entries m (mem_motors m)
  unfold goodEntry at h
  split at h
  · simp at h
  · rename_i name d e
    obtain ⟨⟨h1, h2, h3, h4, h5, h6⟩, h7, h8, h9, h10, h11⟩ := of_decide_eq_true h
    exact ⟨name, d, e, ⟨h1, h2, h3, h4, h5, h6⟩, h7, h8, h9, h10, h11⟩

theorem ids_distinct : (motors.map Motor.envId).Nodup := by decide +kernel

theorem ids_complete : ∀ e ∈ registered, e.1 ∈ motors.map Motor.envId := by decide +kernel

/-- C115 (names): every combination of motor, control task and kind of actions has an environment of its own, with the motor and the
kind of actions of the combination; it refers to the states that the task is about, its reward weighs the errors of these states, and
the weights add up to 1.  There are no other environments. -/
theorem c115_names :
    (∀ m : Motor, ∃ name d, make m.envId = some (name, d) ∧ Matches m d) ∧
    Function.Injective Motor.envId ∧ ∀ id, (make id).isSome ↔ ∃ m : Motor, m.envId = id := by
  refine ⟨fun m => ?_, ?_, fun id => ⟨fun h => ?_, ?_⟩⟩
  · obtain ⟨name, d, h1, h2, -⟩ := entry_of m
    exact ⟨name, d, h1, h2⟩
  · intro a b h
    exact List.inj_on_of_nodup_map ids_distinct (mem_motors a) (mem_motors b) h
  · unfold make at h
    cases e : registered.reverse.lookup id with
    | none => simp [e] at h
    | some name =>
      have hm : (id, name) ∈ registered := by
        rw [List.lookup_eq_some_iff] at e
        obtain ⟨l1, l2, e, -⟩ := e
        rw [← List.mem_reverse, e]
        simp
      obtain ⟨m, -, hm⟩ := List.mem_map.1 (ids_complete _ hm)
      exact ⟨m, hm⟩
  · rintro ⟨m, rfl⟩
    obtain ⟨name, d, h, -⟩ := entry_of m
    simp [h]

theorem states_listed : ∀ m ∈ motors, m.states.Nodup ∧ (∀ s ∈ m.states, s ∈ stateNames m.type) ∧
    ∀ s ∈ stateNames m.type, s ∈ m.states ∨ s = "u_sup" ∨ s = "epsilon" := by decide +kernel

/-- C116: `Motor.states` lists states of the environment, each once; all but the supply voltage and, for some motors, the
angle.  Missing for C116: these. -/
theorem c116_states_partial (m : Motor) : m.states.Nodup ∧ (∀ s ∈ m.states, s ∈ stateNames m.type) ∧
    ∀ s ∈ stateNames m.type, s ∈ m.states ∨ s = "u_sup" ∨ s = "epsilon" := states_listed m (mem_motors m)

/-- C116 fails: `Motor.states` never lists the supply voltage. -/
theorem c116_states_violated (m : Motor) : "u_sup" ∈ stateNames m.type ∧ "u_sup" ∉ m.states := by
  revert m
  have : ∀ m ∈ motors, "u_sup" ∈ stateNames m.type ∧ "u_sup" ∉ m.states := by decide +kernel
  exact fun m => this m (mem_motors m)

/-! ## The parts of a default environment -/

open GEM.Sys GEM.Conv GEM.Refs GEM.Utils GEM.Assembly GEM.Reward

/-- the converters of Props/Accepts.lean -/
def bridgeKind : Bridge → ConvKind
  | .four => .four
  | .b6 => .b6

/-- `FiniteFourQuadrantConverter()`, `FiniteB6BridgeConverter()` -/
def newF : Bridge → FConv ℝ
  | .four => .four (FourQC.new (1 / 100000) 0)
  | .b6 => .b6 (B6.new (1 / 100000) 0)

/-- `ContFourQuadrantConverter()`, `ContB6BridgeConverter()` -/
def newC : Bridge → CConv ℝ
  | .four => .four (CFour.new (1 / 10000) 0)
  | .b6 => .b6 (CB6.new (1 / 10000) 0)

/-- Default converters with their actions, state after construction and action space; the physical system hands its sampling time to
them (physical_systems.py 46, 66–69). -/
inductive Powered (tau : ℝ) : ActionType → ConvArg → (A C : Type) → Power A C → C → (A → Prop) → Prop
  | finite (k : Bridge) : Powered tau .finite (.single k) ℕ (FConv ℝ) finitePower ((newF k).setTau tau)
      (fun a => a < (bridgeKind k).actions)
  | continuous (k : Bridge) : Powered tau .continuous (.single k) (List ℝ) (CConv ℝ) contPower ((newC k).setTau tau)
      (fun a => a.length = (bridgeKind k).dim)
  | finiteMulti (ks : List Bridge) : Powered tau .finite (.multi ks) (List ℕ) (List (FConv ℝ)) finiteMulti
      (multiSetTau (ks.map newF) tau) (List.Forall₂ (fun k a => a < (bridgeKind k).actions) ks)
  | contMulti (ks : List Bridge) : Powered tau .continuous (.multi ks) (List ℝ) (List (CConv ℝ)) contMulti
      (cMultiSetTau (ks.map newC) tau) (fun a => a.length = dims (ks.map bridgeKind))

/-- a physical system but for its components -/
structure Drive where
  Y : Type
  U : Type
  shape : Y → Prop
  frame (A : Type) : Frame ℝ Y U A
  rep : Y → List ℝ → List ℝ → Except Err (List ℝ)

/-- The system of a motor, for a load with the speed as its only state; the torque functions of the motors are arbitrary. -/
inductive Drives : MotorType → Drive → Prop
  | permExDc (tq : List ℝ → ℝ) : Drives .permExDc
      ⟨DcY ℝ, List ℝ, DcShape 1 1, fun _ => dcFrame id tq [0] 1 1, dcResetReport tq [0]⟩
  | seriesDc (tq : List ℝ → ℝ) : Drives .seriesDc
      ⟨DcY ℝ, List ℝ, DcShape 1 1, fun _ => dcFrame id tq [0] 1 1, dcResetReport tq [0]⟩
  | shuntDc (tq : List ℝ → ℝ) : Drives .shuntDc
      ⟨DcY ℝ, List ℝ, DcShape 1 2, fun _ => dcFrame (fun l => [l.getD 0 0 + l.getD 1 0]) tq [0, 1] 1 1, dcResetReport tq [0, 1]⟩
  | extExDc (tq : List ℝ → ℝ) : Drives .extExDc
      ⟨DcY ℝ, List ℝ, DcShape 1 2, fun _ => dcFrame id tq [0, 1] 2 1, dcResetReport tq [0, 1]⟩
  | pmsm (tq : SyncY → ℝ) : Drives .pmsm ⟨SyncY, Fin 2 → ℝ, SyncShape 1, fun _ => asIs (syncFrame tq false), syncReset tq⟩
  | synRm (tq : SyncY → ℝ) : Drives .synRm ⟨SyncY, Fin 2 → ℝ, SyncShape 1, fun _ => asIs (syncFrame tq false), syncReset tq⟩
  | scim (tq : ImY → ℝ) : Drives .scim ⟨ImY, Fin 2 → ℝ, ImShape 1, fun _ => asIs (scimFrame tq false), scimReset tq⟩
  | dfim (lm lsigr : ℝ) (tq : ImY → ℝ) : Drives .dfim
      ⟨ImY, (Fin 2 → ℝ) × (Fin 2 → ℝ), ImShape 1, fun _ => asIs (dfimFrame lm lsigr tq), dfimReset lm lsigr tq⟩
  | eesm (tq : EesmY → ℝ) : Drives .eesm ⟨EesmY, List ℝ, EesmShape 1, fun _ => asIs (eesmFrame tq), eesmReset tq⟩

theorem newF_is (k : Bridge) (tau : ℝ) : IsF (bridgeKind k) ((newF k).setTau tau) := by
  cases k <;> simp [IsF, newF, FConv.setTau, fKind, bridgeKind, Switched, FourQC.new, B6.new, TwoQC.new]

theorem newC_is (k : Bridge) (tau : ℝ) : IsC (bridgeKind k) ((newC k).setTau tau) := by
  cases k <;> simp [IsC, newC, CConv.setTau, cKind, bridgeKind]

theorem newFs_are (ks : List Bridge) (tau : ℝ) : List.Forall₂ IsF (ks.map bridgeKind) (multiSetTau (ks.map newF) tau) := by
  induction ks with
  | nil => exact .nil
  | cons k ks ih => exact .cons (newF_is k tau) ih

theorem newCs_are (ks : List Bridge) (tau : ℝ) : List.Forall₂ IsC (ks.map bridgeKind) (cMultiSetTau (ks.map newC) tau) := by
  induction ks with
  | nil => exact .nil
  | cons k ks ih => exact .cons (newC_is k tau) ih

theorem newFs_together (ks : List Bridge) (tau : ℝ) : FTogether (1 / 100000) (multiSetTau (ks.map newF) tau) := by
  intro x hx
  simp only [multiSetTau, List.map_map, List.mem_flatMap, List.mem_map, Function.comp] at hx
  obtain ⟨c, ⟨k, -, rfl⟩, hx⟩ := hx
  cases k <;> simpa [newF, FConv.setTau, fTimes, FourQC.new, B6.new, TwoQC.new] using hx

theorem newCs_together (ks : List Bridge) (tau : ℝ) : CTogether (1 / 10000) (cMultiSetTau (ks.map newC) tau) := by
  intro x hx
  simp only [cMultiSetTau, List.map_map, List.mem_flatMap, List.mem_map, Function.comp] at hx
  obtain ⟨c, ⟨k, -, rfl⟩, hx⟩ := hx
  cases k <;> simpa [newC, CConv.setTau, cTimes, CFour.new, CB6.new, CTwo.new] using hx

theorem forall_actions (ks : List Bridge) : List.Forall₂ (fun (k : Bridge) (a : ℕ) => a < (bridgeKind k).actions) ks
    = List.Forall₂ (fun (k : ConvKind) a => a < k.actions) (ks.map bridgeKind) := by
  funext as
  rw [List.forall₂_map_left_iff]

theorem some_actions (ks : List Bridge) : List.Forall₂ (fun k a => a < (bridgeKind k).actions) ks (ks.map fun _ => 0) := by
  induction ks with
  | nil => exact .nil
  | cons k ks ih => exact .cons (by cases k <;> simp [bridgeKind, ConvKind.actions]) ih

/-- The converter fits to statements about every converter. -/
theorem powered_every {n : ℕ} {claim : ∀ A C : Type, Power A C → (C → Prop) → (A → Prop) → Prop} (h : EveryConverter n claim)
    {tau : ℝ} {a : ActionType} {arg : ConvArg} {A C : Type} {pw : Power A C} {c : C} {space : A → Prop} (hp : Powered tau a arg A C pw c space)
    (hn : (match arg with | .single k => (bridgeKind k).dim | .multi ks => dims (ks.map bridgeKind)) = n) :
    ∃ idle, claim A C pw idle space ∧ idle c := by
  subst hn
  cases hp with
  | finite k => exact ⟨_, h.1 _ rfl, newF_is k tau⟩
  | continuous k => exact ⟨_, h.2.1 _ rfl, newC_is k tau⟩
  | finiteMulti ks =>
    refine ⟨_, ?_, newFs_are ks tau⟩
    rw [forall_actions]
    exact h.2.2.1 (ks.map bridgeKind) rfl
  | contMulti ks => exact ⟨_, h.2.2.2 (ks.map bridgeKind) rfl, newCs_are ks tau⟩

theorem powered_space {tau : ℝ} {a : ActionType} {arg : ConvArg} {A C : Type} {pw : Power A C} {c : C} {space : A → Prop}
    (hp : Powered tau a arg A C pw c space) : ∃ x, space x := by
  cases hp with
  | finite k => exact ⟨0, by cases k <;> simp [bridgeKind, ConvKind.actions]⟩
  | continuous k => exact ⟨List.replicate (bridgeKind k).dim 0, by simp⟩
  | finiteMulti ks => exact ⟨_, some_actions ks⟩
  | contMulti ks => exact ⟨List.replicate (dims (ks.map bridgeKind)) 0, by simp⟩

/-- Systems with the default converters accept every action of the action space. -/
theorem drives_accept {t : MotorType} {D : Drive} (hD : Drives t D) {tau : ℝ} {a : ActionType} {A C : Type} {pw : Power A C}
    {c : C} {space : A → Prop} (hp : Powered tau a (converterOf t) A C pw c space) {S P : Type} (p : Parts ℝ D.Y D.U A S C P)
    (hu : Uses p pw) (hs : Shaped p D.shape) (tau' : ℝ) (limits : List ℝ) (hl : limits.length = (stateNames t).length) :
    ∃ idle, AcceptsAll p (D.frame A) D.rep tau' limits (stateNames t).length idle D.shape space ∧ idle c := by
  cases hD with
  | permExDc tq =>
    obtain ⟨idle, h1, h2⟩ := powered_every c109_dc.2.2 hp rfl
    exact ⟨idle, h1 p ["omega"] hu hs tq tau' limits hl, h2⟩
  | seriesDc tq =>
    obtain ⟨idle, h1, h2⟩ := powered_every c109_dc.2.2 hp rfl
    exact ⟨idle, h1 p ["omega"] hu hs tq tau' limits hl, h2⟩
  | shuntDc tq =>
    obtain ⟨idle, h1, h2⟩ := powered_every c109_dc.2.1 hp rfl
    exact ⟨idle, h1 p ["omega"] hu hs tq tau' limits hl, h2⟩
  | extExDc tq =>
    obtain ⟨idle, h1, h2⟩ := powered_every c109_dc.1 hp rfl
    exact ⟨idle, h1 p ["omega"] hu hs tq tau' limits hl, h2⟩
  | pmsm tq =>
    obtain ⟨idle, h1, h2⟩ := powered_every (c109_sync ["omega"] tq tau' limits hl).1 hp rfl
    exact ⟨idle, h1 p hu hs, h2⟩
  | synRm tq =>
    obtain ⟨idle, h1, h2⟩ := powered_every (c109_sync ["omega"] tq tau' limits hl).1 hp rfl
    exact ⟨idle, h1 p hu hs, h2⟩
  | scim tq =>
    obtain ⟨idle, h1, h2⟩ := powered_every (c109_scim ["omega"] tq tau' limits hl).1 hp rfl
    exact ⟨idle, h1 p hu hs, h2⟩
  | dfim lm lsigr tq =>
    obtain ⟨idle, h1, h2⟩ := powered_every (c109_dfim ["omega"] lm lsigr tq tau' limits hl) hp rfl
    exact ⟨idle, h1 p hu hs, h2⟩
  | eesm tq =>
    generalize hk : converterOf .eesm = arg at hp
    cases hp with
    | finite k => cases hk
    | continuous k => cases hk
    | finiteMulti ks =>
      cases hk
      rw [forall_actions]
      exact ⟨_, (c109_eesm_partial ["omega"] tq tau' limits hl ([.b6, .four].map bridgeKind) rfl (1 / 100000)).1 p hu hs,
        newFs_are _ tau, newFs_together _ tau⟩
    | contMulti ks =>
      cases hk
      exact ⟨_, (c109_eesm_partial ["omega"] tq tau' limits hl ([.b6, .four].map bridgeKind) rfl (1 / 10000)).2 p hu hs,
        newCs_are _ tau, newCs_together _ tau⟩

/-! ## State spaces and references -/

theorem entry_high (t : MotorType) {i : ℕ} (hi : i < (stateNames t).length) : entry (high t) i = 1 := by
  simp [entry, high, List.getD_eq_getElem?_getD, List.getElem?_replicate, hi]

theorem acLow_spec (n i : ℕ) (hi : i < n) : -1 ≤ entry (acLow n) i ∧ entry (acLow n) i ≤ 0 := by
  unfold entry acLow
  rw [List.getD_eq_getElem?_getD]
  rcases Nat.lt_or_ge i (n - 1) with h | h
  · rw [List.getElem?_append_left (by simpa using h), List.getElem?_replicate, if_pos h]
    norm_num
  · obtain rfl : i = n - 1 := by omega
    rw [List.getElem?_append_right (by simp)]
    simp

theorem low_spec (t : MotorType) : (low t).length = (stateNames t).length ∧
    ∀ i < (stateNames t).length, -1 ≤ entry (low t) i ∧ entry (low t) i ≤ 0 := by
  cases t
  case permExDc | seriesDc | shuntDc | extExDc =>
    refine ⟨rfl, fun i hi => ?_⟩
    simp only [stateNames, dcNames, List.cons_append, List.nil_append, List.length_cons, List.length_nil] at hi
    interval_cases i <;>
      simp [low, dcLow, entry, Space.permEx, Space.series, Space.shunt, Space.extEx, Space.signed, fourLow]
  all_goals exact ⟨by simp [low, acLow, stateNames, syncNames, scimNames, dfimNames, eesmNames], fun i hi => acLow_spec _ i hi⟩

theorem stateNames_nodup (t : MotorType) : (stateNames t).Nodup := by
  have : ∀ m ∈ motors, (stateNames m.type).Nodup := by decide +kernel
  exact this ⟨t, .speed, .finite⟩ (mem_motors _)

/-- `limit_margin` as argument -/
def marginArg : Option (ℚ × ℚ) → Margin ℝ
  | none => .none
  | some (a, b) => .pair a b

variable {H : Type}

/-- A Wiener process generator made with these arguments, after `set_modules` with a system with these limits and nominal values
(wiener_process_reference_generator.py 11–40, subepisoded_reference_generator.py 15–64): sub-episodes with 500 to 2000 steps, start
values from the reference space. -/
structure WienerOf (R : Rng H) (t : MotorType) (limits nominal : List ℝ) (g : WienerArg) (c : SubCfg H ℝ) : Prop where
  name : c.name = g.state
  mask : Refs.mask (stateNames t) g.state = .ok c.mask
  margin : setMargin (entry nominal ((stateNames t).idxOf g.state)) (entry limits ((stateNames t).idxOf g.state))
    (entry (low t) ((stateNames t).idxOf g.state)) (entry (high t) ((stateNames t).idxOf g.state)) (marginArg g.margin)
    = .ok (c.low, c.high)
  length : c.drawLen = lenDraw R (.pair 500 2000)
  make : c.make = wienerMake R (.pair g.sigma.1 g.sigma.2)
  initial : c.initial = some (wienerInitial R c.low c.high)

/-- before the first reset -/
def Unused (c : SubCfg H ℝ) (s : SubSt H ℝ) : Prop := s.reference = none ∧ s.margin = (c.low, c.high)

/-- `seed` exchanges the random generator -/
def Reseeded (s s' : SubSt H ℝ) : Prop := s' = { s with gen := s'.gen, spawned := s'.spawned }

/-- The default reference generator: a Wiener process, or several that are not for the same state. -/
inductive Generates (R : Rng H) (t : MotorType) (limits nominal : List ℝ) :
    RefArg → (τ : Type) → RefGen τ ℝ → (τ → Prop) → (τ → τ → Prop) → Prop
  | one (g : WienerArg) (c : SubCfg H ℝ) (h : WienerOf R t limits nominal g c) :
      Generates R t limits nominal (.one g) (SubSt H ℝ) (subGen c) (Unused c) Reseeded
  | multiple (gs : List WienerArg) (cs : List (SubCfg H ℝ)) (h : List.Forall₂ (WienerOf R t limits nominal) gs cs)
      (M : RefGen (List (SubSt H ℝ)) ℝ) (hM : multiGen (stateNames t).length (cs.map subGen) = .ok M) :
      Generates R t limits nominal (.multiple gs) (List (SubSt H ℝ)) M (List.Forall₂ Unused cs) (List.Forall₂ Reseeded)

/-- A nominal value is the limit or lies between 0 and the limit. -/
def Nominal (limit nominal : ℝ) : Prop := nominal = limit ∨ 0 < nominal ∧ nominal ≤ limit

/-- The nominal values of these states fit to their limits. -/
def NominalOk (t : MotorType) (limits nominal : List ℝ) (states : List String) : Prop :=
  ∀ n ∈ states, Nominal (entry limits ((stateNames t).idxOf n)) (entry nominal ((stateNames t).idxOf n))

theorem mask_ok {names : List String} {s : String} {m : List Bool} (h : Refs.mask names s = .ok m) :
    s ∈ names ∧ m = names.map fun n => decide (n = s) := by
  unfold Refs.mask at h
  split_ifs at h with hs
  exact ⟨hs, (Except.ok.inj h).symm⟩

theorem wiener_bounds {R : Rng H} {t : MotorType} {limits nominal : List ℝ} {g : WienerArg} {c : SubCfg H ℝ}
    (h : WienerOf R t limits nominal g c) (hn : NominalOk t limits nominal [g.state]) (hm : MarginOk g.margin) :
    entry (low t) ((stateNames t).idxOf g.state) ≤ c.low ∧ c.low ≤ c.high ∧
      c.high ≤ entry (high t) ((stateNames t).idxOf g.state) := by
  obtain ⟨hs, -⟩ := mask_ok h.mask
  have hi := List.idxOf_lt_length_of_mem hs
  obtain ⟨l1, l2⟩ := (low_spec t).2 _ hi
  have e := h.margin
  have eh := entry_high t hi
  rw [eh] at e ⊢
  have hn := hn g.state (by simp)
  generalize entry (low t) ((stateNames t).idxOf g.state) = l at *
  generalize entry nominal ((stateNames t).idxOf g.state) = nom at *
  generalize entry limits ((stateNames t).idxOf g.state) = lim at *
  cases hg : g.margin with
  | none =>
    simp only [hg, marginArg, setMargin, Except.ok.injEq, Prod.mk.injEq] at e
    have q : 0 ≤ nom / lim ∧ nom / lim ≤ 1 := by
      rcases hn with rfl | ⟨n1, n2⟩
      · exact ⟨by by_cases h0 : nom = 0 <;> simp [h0], div_self_le_one nom⟩
      · exact ⟨div_nonneg n1.le (n1.le.trans n2), div_le_one_of_le₀ n2 (n1.le.trans n2)⟩
    obtain ⟨q0, q1⟩ := q
    rw [← e.1, ← e.2]
    exact ⟨by nlinarith, by nlinarith, by linarith⟩
  | some ab =>
    obtain ⟨a, b⟩ := ab
    simp only [hg, marginArg, setMargin, Except.ok.injEq, Prod.mk.injEq] at e
    rw [hg] at hm
    obtain ⟨a0, a1, b0, b1⟩ := hm
    have a0 : (0 : ℝ) ≤ a := by exact_mod_cast a0
    have a1 : (a : ℝ) ≤ 1 := by exact_mod_cast a1
    have b0 : (0 : ℝ) ≤ b := by exact_mod_cast b0
    have b1 : (b : ℝ) ≤ 1 := by exact_mod_cast b1
    rw [← e.1, ← e.2]
    exact ⟨by nlinarith, by nlinarith, by linarith⟩

theorem mask_at {names : List String} (hd : names.Nodup) {s : String} {i : ℕ} (h : (names.map fun n => decide (n = s))[i]? = some true) :
    i = names.idxOf s := by
  rw [List.getElem?_map] at h
  cases e : names[i]? with
  | none => simp [e] at h
  | some n =>
    simp only [e, Option.map_some, Option.some.injEq, decide_eq_true_eq] at h
    subst h
    obtain ⟨hi, rfl⟩ := List.getElem?_eq_some_iff.1 e
    exact (hd.idxOf_getElem i hi).symm

theorem wiener_provides {R : Rng H} (hR : RngOk R) {t : MotorType} {limits nominal : List ℝ} {g : WienerArg} {c : SubCfg H ℝ}
    (h : WienerOf R t limits nominal g c) (hn : NominalOk t limits nominal [g.state]) (hm : MarginOk g.margin) :
    ∃ fresh ready, Provides (subGen c) (low t) (high t) fresh ready ∧ (∀ s, Unused c s → fresh s) ∧
      ∀ s s', fresh s → Reseeded s s' → fresh s' := by
  obtain ⟨hs, hmask⟩ := mask_ok h.mask
  obtain ⟨b1, b2, b3⟩ := wiener_bounds h hn hm
  have hlen := (low_spec t).1
  obtain ⟨fresh, ready, h1, h2, h3⟩ := c114_references hR (.wiener (.pair g.sigma.1 g.sigma.2)) ⟨_, _, rfl⟩ (.pair 500 2000) trivial
    (by norm_num [Range.least]) c h.make h.length (low t) (high t) (by rw [hlen]; simp [high]) (by rw [hmask, hlen]; simp)
    (by rw [hmask]; simpa using hs) b2 (by
      intro i hi
      rw [hlen] at hi
      split_ifs with hc
      · rw [hmask] at hc
        rw [mask_at (stateNames_nodup t) hc]
        exact ⟨b1, b3⟩
      · rw [entry_high t hi]
        exact ⟨((low_spec t).2 i hi).2, zero_le_one⟩)
  refine ⟨fresh, ready, h1, fun s hs => h2 s hs.1 hs.2, fun s s' hf hr => h3 s s' hf ?_ ?_⟩
  · rw [hr]
  · rw [hr]

/-- fresh, whatever the seed -/
def FreshAny (low high : List ℝ) (g : RefGen (SubSt H ℝ) ℝ) (s : SubSt H ℝ) : Prop :=
  ∃ fresh ready, Provides g low high fresh ready ∧ (∀ s s', fresh s → Reseeded s s' → fresh s') ∧ fresh s

/-- ready, and fresh whatever the seed -/
def ReadyAny (low high : List ℝ) (g : RefGen (SubSt H ℝ) ℝ) (s : SubSt H ℝ) : Prop :=
  ∃ fresh ready, Provides g low high fresh ready ∧ (∀ s s', fresh s → Reseeded s s' → fresh s') ∧ ready s

theorem provides_any (g : RefGen (SubSt H ℝ) ℝ) (low high : List ℝ) : Provides g low high (FreshAny low high g) (ReadyAny low high g) where
  reset t s init := by
    rintro ⟨fresh, ready, h, hc, ht⟩ hi
    obtain ⟨t', r, o, h1, h2, h3, h4⟩ := h.reset t s init ht hi
    exact ⟨t', r, o, h1, h2, h3, fresh, ready, h, hc, h4⟩
  getRef t s := by
    rintro ⟨fresh, ready, h, hc, ht⟩
    obtain ⟨t', r, h1, h2, h3⟩ := h.getRef t s ht
    exact ⟨t', r, h1, h2, fresh, ready, h, hc, h3⟩
  getObs t s := by
    rintro ⟨fresh, ready, h, hc, ht⟩
    obtain ⟨t', o, h1, h2, h3⟩ := h.getObs t s ht
    exact ⟨t', o, h1, h2, fresh, ready, h, hc, h3⟩
  fresh t := by
    rintro ⟨fresh, ready, h, hc, ht⟩
    exact ⟨fresh, ready, h, hc, h.fresh t ht⟩

/-- The default reference generators provide references in the state space. -/
theorem generates_provides {R : Rng H} (hR : RngOk R) {t : MotorType} {limits nominal : List ℝ} {arg : RefArg} {τ : Type}
    {gen : RefGen τ ℝ} {new : τ → Prop} {reseeded : τ → τ → Prop} (h : Generates R t limits nominal arg τ gen new reseeded)
    (hn : NominalOk t limits nominal (arg.list.map (·.state))) (hm : ∀ g ∈ arg.list, MarginOk g.margin) :
    gen.referenced.length = (stateNames t).length ∧
    ∃ fresh ready, Provides gen (low t) (high t) fresh ready ∧ (∀ s, new s → fresh s) ∧ ∀ s s', fresh s → reseeded s s' → fresh s' := by
  have hlen := (low_spec t).1
  cases h with
  | one g c h =>
    refine ⟨?_, wiener_provides hR h (by simpa [RefArg.list] using hn) (hm g (by simp [RefArg.list]))⟩
    show c.mask.length = _
    rw [(mask_ok h.mask).2, List.length_map]
  | multiple gs cs h M hM =>
    have hon : ∀ g ∈ cs.map subGen, Honest (low t).length g := by
      intro g hg
      obtain ⟨c, hc, rfl⟩ := List.mem_map.1 hg
      obtain ⟨i, hi, rfl⟩ := List.mem_iff_getElem.1 hc
      have := (List.forall₂_iff_get.1 h).2 i (by rw [h.length_eq]; exact hi) hi
      have hl : (cs[i]).mask.length = (low t).length := by
        have := (mask_ok this.mask).2
        simp only [List.get_eq_getElem] at this
        rw [this, List.length_map, hlen]
      rw [← hl]
      exact c43_honest.1 _
    have hP := multiple_provides (FreshAny (low t) (high t)) (ReadyAny (low t) (high t)) (low t) (high t)
      (fun g => provides_any g _ _) (by rw [hlen]; simp [high]) (by rw [hlen]; exact hM) hon (fun i hi => by
        rw [hlen] at hi
        rw [entry_high t hi]
        exact ⟨((low_spec t).2 i hi).2, zero_le_one⟩)
    refine ⟨?_, _, _, hP, fun ss hss => ?_, fun ss ss' hf hr => ?_⟩
    · obtain ⟨-, -, rfl⟩ := multiGen_ok hM
      simp
    · rw [List.forall₂_map_left_iff]
      rw [List.forall₂_iff_get] at hss h ⊢
      refine ⟨hss.1, fun i h1 h2 => ?_⟩
      have hw := h.2 i (by rw [h.1]; exact h1) h1
      have hg : gs.get ⟨i, by rw [h.1]; exact h1⟩ ∈ (RefArg.multiple gs).list := List.get_mem _ _
      obtain ⟨fresh, ready, p1, p2, p3⟩ := wiener_provides hR hw (fun n hn' => hn n (by
        simp only [List.mem_singleton] at hn'
        rw [hn']
        exact List.mem_map_of_mem hg)) (hm _ hg)
      exact ⟨fresh, ready, p1, p3, p2 _ (hss.2 i h1 h2)⟩
    · rw [List.forall₂_iff_get] at hf hr ⊢
      refine ⟨hf.1.trans hr.1, fun i h1 h2 => ?_⟩
      obtain ⟨fresh, ready, p1, p2, p3⟩ := hf.2 i h1 (by rw [hr.1]; exact h2)
      exact ⟨fresh, ready, p1, p2, p2 _ _ p3 (hr.2 i (by rw [hr.1]; exact h2) h2)⟩

/-! ## Weights -/

theorem lookup_cons {V : Type} (p : String × V) (d : List (String × V)) (k : String) (hp : p.1 ∉ d.map Prod.fst) :
    lookup (p :: d) k = if p.1 = k then some p.2 else lookup d k := by
  unfold lookup
  rw [List.reverse_cons, List.find?_append]
  split_ifs with h
  · have : d.reverse.find? (fun q => decide (q.1 = k)) = none := by
      rw [List.find?_eq_none]
      intro q hq
      have : q.1 ≠ p.1 := fun e => hp (e ▸ List.mem_map_of_mem (List.mem_reverse.1 hq))
      simpa [h] using this
    rw [this]
    simp [h]
  · simp [h]

theorem single_sum (names : List String) (hn : names.Nodup) (k : String) (v : ℝ) (hk : k ∈ names) :
    (names.map fun n => if k = n then v else 0).sum = v := by
  induction names with
  | nil => simp at hk
  | cons a l ih =>
    rw [List.nodup_cons] at hn
    rw [List.map_cons, List.sum_cons]
    rcases List.mem_cons.1 hk with rfl | hl
    · have : (l.map fun n => if k = n then v else 0) = l.map fun _ => 0 := by
        refine List.map_congr_left fun n h => if_neg ?_
        rintro rfl
        exact hn.1 h
      rw [this]
      simp
    · rw [ih hn.2 hl, if_neg (by rintro rfl; exact hn.1 hl), zero_add]

theorem dict_sum (names : List String) (hn : names.Nodup) (d : List (String × ℝ)) (hd : (d.map Prod.fst).Nodup)
    (hk : ∀ k ∈ d.map Prod.fst, k ∈ names) : (names.map fun n => (lookup d n).getD 0).sum = (d.map Prod.snd).sum := by
  induction d with
  | nil => simp [lookup]
  | cons p d ih =>
    rw [List.map_cons, List.nodup_cons] at hd
    have e : (fun n => (lookup (p :: d) n).getD 0) = fun n => (if p.1 = n then p.2 else 0) + (lookup d n).getD 0 := by
      funext n
      rw [lookup_cons p d n hd.1]
      split_ifs with h
      · have : lookup d n = none := by
          unfold lookup
          rw [Option.map_eq_none_iff, List.find?_eq_none]
          intro q hq
          have : q.1 ≠ p.1 := fun e => hd.1 (e ▸ List.mem_map_of_mem (List.mem_reverse.1 hq))
          simpa [← h] using this
        simp [this]
      · simp
    rw [e, List.sum_map_add, ih hd.2 (fun k h => hk k (by simp [h])), single_sum names hn _ _ (hk p.1 (by simp))]
    simp

/-! ## The environments -/

variable {G τ S C P A : Type}

theorem default_modules {d : Defaults} (hf : Fitting d) (hsum : (d.weights.map Prod.snd).sum = 1) {D : Drive}
    (p : Parts ℝ D.Y D.U A S C P) (limits : List ℝ) (start : G → G × D.Y) (seedSystem : ℕ → G → G) (gen : RefGen τ ℝ)
    (seedRef : ℕ → τ → τ) (lower : String → String) (hlower : ∀ n ∈ stateNames d.motor, lower n = n) (nCb : ℕ) :
    ∃ w m idx, modules (Registry.setup d p (D.frame A) D.rep limits start seedSystem gen seedRef lower nCb) = .ok (w, m, idx) ∧
      w.range = some (-1, 0) ∧ w.violation = some (.fin (-10)) := by
  set c := Registry.setup d p (D.frame A) D.rep limits start seedSystem gen seedRef lower nCb with hc
  have hk : ∀ k ∈ d.weights.map Prod.fst, k ∈ stateNames d.motor := fun k h => hf.known k (by simp only [List.mem_append]; tauto)
  have hlow : ((d.weights.map fun w => (w.1, (w.2 : ℝ))).map fun q => (lower q.1, q.2)) = d.weights.map fun w => (w.1, (w.2 : ℝ)) := by
    rw [List.map_map]
    refine List.map_congr_left fun w hw => ?_
    simp only [Function.comp]
    rw [hlower w.1 (hk w.1 (List.mem_map_of_mem hw))]
  have harr : setStateArray lower (stateNames d.motor) (.dict (d.weights.map fun w => (w.1, (w.2 : ℝ))))
      = .ok ((stateNames d.motor).map fun n => (lookup (d.weights.map fun w => (w.1, (w.2 : ℝ))) n).getD 0) := by
    simp only [setStateArray, stateDictToStateArray]
    rw [hlow, if_pos]
    · congr 1
      rw [List.zipWith_map_right, List.zipWith_self]
      refine List.map_congr_left fun n _ => ?_
      cases lookup (d.weights.map fun w => (w.1, (w.2 : ℝ))) n <;> rfl
    · intro q hq
      obtain ⟨w, hw, rfl⟩ := List.mem_map.1 hq
      exact hk w.1 (List.mem_map_of_mem hw)
  have htot : ((stateNames d.motor).map fun n => (lookup (d.weights.map fun w => (w.1, (w.2 : ℝ))) n).getD 0).sum = 1 := by
    rw [dict_sum _ (stateNames_nodup _) _ (by rw [List.map_map]; exact hf.distinct) (by rw [List.map_map]; exact hk), List.map_map]
    have : ((d.weights.map Prod.snd).map fun q : ℚ => (q : ℝ)).sum = (((d.weights.map Prod.snd).sum : ℚ) : ℝ) := by
      generalize d.weights.map Prod.snd = l
      induction l with
      | nil => simp
      | cons a l ih => rw [List.map_cons, List.sum_cons, List.sum_cons, ih, Rat.cast_add]
    rw [List.map_map] at this
    rw [show ((Prod.snd ∘ fun w : String × ℚ => (w.1, (w.2 : ℝ))) = ((fun q : ℚ => (q : ℝ)) ∘ Prod.snd)) from rfl, this, hsum]
    norm_num
  have hw : ∃ w, setModules c.lower c.wse ⟨c.names, c.low, c.high, c.gen.referenced⟩ = .ok w ∧ w.range = some (-1, 0) ∧
      w.violation = some (.fin (-10)) := by
    have e1 : setStateArray lower (stateNames d.motor) (Input.scalar (1 : ℝ)) = .ok ((stateNames d.motor).map fun _ => 1) := rfl
    simp only [hc, Registry.setup, setModules, Wse.init, e1, weightArray, harr, Except.map, finish, htot, violationOf,
      defaultViolation, Bias.value, Option.map_none]
    norm_num
  obtain ⟨w, h1, h2, h3⟩ := hw
  obtain ⟨x, hx⟩ := (c114_constructed c hlower ⟨w, h1⟩).2 ⟨Or.inr fun k hk => by
      have : k ∈ stateNames d.motor := hf.known k (by simp only [List.mem_append]; exact Or.inl (Or.inr hk))
      show lower k ∈ stateNames d.motor
      rwa [hlower k this], fun g hg n hn => hf.known n (by
        simp only [List.mem_append]
        exact Or.inr (List.mem_flatten.2 ⟨g, hg, hn⟩)), fun n hn => hn⟩
  unfold build at hx
  cases hm : modules c with
  | error e => simp [hm, Except.map] at hx
  | ok y =>
    obtain ⟨w', m, idx⟩ := y
    obtain ⟨-, -, -, h4, -⟩ := modules_ok hm
    rw [h1, Except.ok.injEq] at h4
    subst h4
    exact ⟨w, m, idx, rfl, h2, h3⟩

/-- Registered environments with any reference generator that provides references. -/
theorem provided_environment (m : Motor) {name : String} {d : Defaults} (hd : make m.envId = some (name, d))
    {D : Drive} (hD : Drives d.motor D) {pw : Power A C} {conv : C} {space : A → Prop}
    (hpw : Powered d.tau d.action d.converter A C pw conv space) (p : Parts ℝ D.Y D.U A S C P) (hu : Uses p pw) (hs : Shaped p D.shape)
    (limits : List ℝ) (hl : limits.length = (stateNames d.motor).length)
    (start : G → G × D.Y) (hstart : ∀ g, D.shape (start g).2) (seedSystem : ℕ → G → G)
    {gen : RefGen τ ℝ} {fresh ready : τ → Prop} (href : gen.referenced.length = (stateNames d.motor).length)
    (g1 : Provides gen (low d.motor) (high d.motor) fresh ready)
    (seedRef : ℕ → τ → τ) (hseed : ∀ n s, fresh s → fresh (seedRef n s)) (lower : String → String)
    (hlower : ∀ n ∈ stateNames d.motor, lower n = n) (nCb : ℕ) :
    ∃ w mo idx, modules (Registry.setup d p (D.frame A) D.rep limits start seedSystem gen seedRef lower nCb) = .ok (w, mo, idx) ∧
      ∀ (x : World S C P G τ), x.sys.conv = conv → fresh x.ref → x.sys.k = 0 →
      ∀ ops : List (Core.Op (World S C P G τ) A), (∀ op ∈ ops, Proper space op) →
        Conforms (Registry.setup d p (D.frame A) D.rep limits start seedSystem gen seedRef lower nCb) (-1) 0 (-10) true
          (Core.run (comps (Registry.setup d p (D.frame A) D.rep limits start seedSystem gen seedRef lower nCb) w mo idx)
            (Core.Env.init (comps (Registry.setup d p (D.frame A) D.rep limits start seedSystem gen seedRef lower nCb) w mo idx) x) ops).2 := by
  obtain ⟨name', d', hd', hmatch, hfit⟩ := entry_of m
  rw [hd, Option.some.injEq, Prod.mk.injEq] at hd'
  obtain ⟨rfl, rfl⟩ := hd'
  obtain ⟨w, mo, idx, e1, e2, e3⟩ := default_modules hfit hmatch.total p limits start seedSystem gen seedRef lower hlower nCb
  refine ⟨w, mo, idx, e1, fun x hx hf hk ops hops => ?_⟩
  rw [hfit.converter] at hpw
  obtain ⟨idle, ha, hi⟩ := drives_accept hD hpw p hu hs d.tau limits hl
  have hcoh : Coherent (Registry.setup d p (D.frame A) D.rep limits start seedSystem gen seedRef lower nCb) := by
    refine ⟨⟨(low_spec d.motor).1, by simp [Registry.setup, high], href, fun i hi => ?_⟩, stateNames_nodup _, hlower, fun g hg n hn => ?_,
      some (.dict (d.weights.map fun w => (w.1, (w.2 : ℝ)))), false, none, 9 / 10, .scalar 1, .num 0, rfl, ?_, ?_, by norm_num, by simp⟩
    · have hi : i < (stateNames d.motor).length := hi
      show entry (low d.motor) i < entry (high d.motor) i
      rw [entry_high _ hi]
      linarith [((low_spec d.motor).2 i hi).2]
    · refine entry_high _ (List.idxOf_lt_length_of_mem (hfit.known n ?_))
      simp only [List.mem_append]
      exact Or.inr (List.mem_flatten.2 ⟨g, hg, hn⟩)
    · intro a ha
      simp only [Option.mem_def, Option.some.injEq] at ha
      subst ha
      intro q hq
      obtain ⟨w, hw, rfl⟩ := List.mem_map.1 hq
      have := hmatch.positive w hw
      show (0 : ℝ) ≤ w.2
      exact_mod_cast this.le
    · simp [Nonneg]
  obtain ⟨lo, hi', v, f1, f2, f3, -⟩ := c114_environment_partial hcoh e1 ha (powered_space hpw) hstart g1
    hseed x (by rw [hx]; exact hi) hf hk ops hops
  rw [e2] at f1
  rw [e3] at f2
  simp only [Option.some.injEq, Prod.mk.injEq, Fl.fin.injEq] at f1 f2
  obtain ⟨rfl, rfl⟩ := f1
  subst f2
  exact f3

/-- C115 (environments): every registered environment with its default arguments can be constructed and always answers.

For every motor, control task and kind of actions; the system of the motor with any torque function, the default converter, any ideal
supply, solver and initial states with one voltage and states of the right shape; the default reference generator with any random
numbers; limits that fit to the nominal values of the referenced states (C117).  In every history of resets and steps with
actions of the action space, the resets and the steps of running episodes answer with observations inside the observation space (but
for states outside the state space), an episode ends exactly if a default constraint is violated, the reward is then -10, and otherwise
between -1 and 0 while the state is inside the state space. -/
theorem c115_environment {R : Rng H} (hR : RngOk R) (m : Motor) {name : String} {d : Defaults} (hd : make m.envId = some (name, d))
    {D : Drive} (hD : Drives d.motor D) {pw : Power A C} {conv : C} {space : A → Prop}
    (hpw : Powered d.tau d.action d.converter A C pw conv space) (p : Parts ℝ D.Y D.U A S C P) (hu : Uses p pw) (hs : Shaped p D.shape)
    (limits nominal : List ℝ) (hl : limits.length = (stateNames d.motor).length)
    (hn : NominalOk d.motor limits nominal (d.references.list.map (·.state)))
    (start : G → G × D.Y) (hstart : ∀ g, D.shape (start g).2) (seedSystem : ℕ → G → G)
    {gen : RefGen τ ℝ} {new : τ → Prop} {reseeded : τ → τ → Prop} (hg : Generates R d.motor limits nominal d.references τ gen new reseeded)
    (seedRef : ℕ → τ → τ) (hseed : ∀ n s, reseeded s (seedRef n s)) (lower : String → String)
    (hlower : ∀ n ∈ stateNames d.motor, lower n = n) (nCb : ℕ) (x : World S C P G τ) (hx : x.sys.conv = conv) (hf : new x.ref)
    (hk : x.sys.k = 0) :
    ∃ mods, build (Registry.setup d p (D.frame A) D.rep limits start seedSystem gen seedRef lower nCb) = .ok mods ∧
      ∀ ops : List (Core.Op (World S C P G τ) A), (∀ op ∈ ops, Proper space op) →
        Conforms (Registry.setup d p (D.frame A) D.rep limits start seedSystem gen seedRef lower nCb) (-1) 0 (-10) true
          (Core.run mods (Core.Env.init mods x) ops).2 := by
  obtain ⟨name', d', hd', hmatch, hfit⟩ := entry_of m
  rw [hd, Option.some.injEq, Prod.mk.injEq] at hd'
  obtain ⟨rfl, rfl⟩ := hd'
  obtain ⟨href, fresh, ready, g1, g2, g3⟩ := generates_provides hR hg hn hfit.margins
  obtain ⟨w, mo, idx, e1, e2⟩ := provided_environment m hd hD hpw p hu hs limits hl start hstart seedSystem href g1 seedRef
    (fun n t ht => g3 t _ ht (hseed n t)) lower hlower nCb
  exact ⟨comps (Registry.setup d p (D.frame A) D.rep limits start seedSystem gen seedRef lower nCb) w mo idx,
    by simp only [build, e1, Except.map], fun ops hops => e2 x hx (g2 _ hf) hk ops hops⟩

/-! ## Such environments exist -/

/-- the generator after `set_modules`; `spawn` are the children of its seed sequence -/
def wienerCfg (R : Rng H) (spawn : ℕ → H) (t : MotorType) (limits nominal : List ℝ) (g : WienerArg) : SubCfg H ℝ :=
  let i := (stateNames t).idxOf g.state
  let lim := match g.margin with
    | none => (entry nominal i / entry limits i * entry (low t) i, entry nominal i / entry limits i * entry (high t) i)
    | some (a, b) => (a * entry (low t) i, b * entry (high t) i)
  { name := g.state
    mask := (stateNames t).map fun n => decide (n = g.state)
    low := lim.1
    high := lim.2
    drawLen := lenDraw R (.pair 500 2000)
    make := wienerMake R (.pair g.sigma.1 g.sigma.2)
    spawn := spawn
    initial := some (wienerInitial R lim.1 lim.2) }

theorem wienerCfg_of (R : Rng H) (spawn : ℕ → H) (t : MotorType) (limits nominal : List ℝ) (g : WienerArg)
    (hg : g.state ∈ stateNames t) : WienerOf R t limits nominal g (wienerCfg R spawn t limits nominal g) := by
  refine ⟨rfl, by simp [Refs.mask, hg, wienerCfg], ?_, rfl, rfl, rfl⟩
  cases h : g.margin <;> simp [wienerCfg, h, marginArg, setMargin]

theorem generates_exists (R : Rng H) (spawn : ℕ → H) (t : MotorType) (limits nominal : List ℝ) (arg : RefArg) (hne : arg.list ≠ [])
    (hk : ∀ g ∈ arg.list, g.state ∈ stateNames t) (hd : (arg.list.map (·.state)).Nodup) (h0 : H) :
    ∃ (τ : Type) (gen : RefGen τ ℝ) (new : τ → Prop) (reseeded : τ → τ → Prop),
      Generates R t limits nominal arg τ gen new reseeded ∧ (∃ s, new s) ∧ ∀ s, reseeded s s := by
  cases arg with
  | one g =>
    refine ⟨_, _, _, _, .one g _ (wienerCfg_of R spawn t limits nominal g (hk g (by simp [RefArg.list]))), ?_, fun s => rfl⟩
    exact ⟨subInit ((wienerCfg R spawn t limits nominal g).low, (wienerCfg R spawn t limits nominal g).high) 500 h0, rfl, rfl⟩
  | multiple gs =>
    have hk : ∀ g ∈ gs, g.state ∈ stateNames t := hk
    have hd : (gs.map (·.state)).Nodup := hd
    obtain ⟨M, hM⟩ := (c43_overlap (stateNames t).length ((gs.map (wienerCfg R spawn t limits nominal)).map subGen)).2
      ⟨by simpa [RefArg.list] using hne, fun i j j' g g' hi h1 h2 h3 h4 => by
        simp only [List.getElem?_map, Option.map_eq_some_iff] at h1 h2
        obtain ⟨c, ⟨a, ha, rfl⟩, rfl⟩ := h1
        obtain ⟨c', ⟨a', ha', rfl⟩, rfl⟩ := h2
        have e1 := mask_at (stateNames_nodup t) h3
        have e2 := mask_at (stateNames_nodup t) h4
        have e : a.state = a'.state := by
          rw [e1] at e2
          exact (List.idxOf_inj (hk a (List.mem_of_getElem? ha))).1 e2
        have q1 : (gs.map (·.state))[j]? = some a.state := by simp [ha]
        have q2 : (gs.map (·.state))[j']? = some a.state := by simp [ha', e]
        obtain ⟨l1, q1⟩ := List.getElem?_eq_some_iff.1 q1
        obtain ⟨l2, q2⟩ := List.getElem?_eq_some_iff.1 q2
        exact (List.Nodup.getElem_inj_iff hd).1 (q1.trans q2.symm)⟩
    have hw : List.Forall₂ (WienerOf R t limits nominal) gs (gs.map (wienerCfg R spawn t limits nominal)) := by
      rw [List.forall₂_map_right_iff, List.forall₂_same]
      exact fun g hg => wienerCfg_of R spawn t limits nominal g (hk g hg)
    refine ⟨_, M, _, _, .multiple gs _ hw M hM,
      ⟨gs.map fun g => subInit ((wienerCfg R spawn t limits nominal g).low, (wienerCfg R spawn t limits nominal g).high) 500 h0, ?_⟩,
      fun s => List.forall₂_same.2 fun _ _ => rfl⟩
    rw [List.forall₂_map_left_iff, List.forall₂_map_right_iff, List.forall₂_same]
    exact fun g hg => ⟨rfl, rfl⟩

/-- C115 (generators): the default reference generators are accepted; in particular, those of several states do not overlap. -/
theorem c115_generators (R : Rng H) (spawn : ℕ → H) (m : Motor) {name : String} {d : Defaults} (hd : make m.envId = some (name, d))
    (limits nominal : List ℝ) (h0 : H) : ∃ (τ : Type) (gen : RefGen τ ℝ) (new : τ → Prop) (reseeded : τ → τ → Prop),
      Generates R d.motor limits nominal d.references τ gen new reseeded ∧ (∃ s, new s) ∧ ∀ s, reseeded s s := by
  obtain ⟨name', d', hd', hmatch, hfit⟩ := entry_of m
  rw [hd, Option.some.injEq, Prod.mk.injEq] at hd'
  obtain ⟨rfl, rfl⟩ := hd'
  refine generates_exists R spawn _ limits nominal _ ?_ (fun g hg => hfit.known _ ?_) hfit.states h0
  · intro e
    have := hmatch.references
    rw [e] at this
    obtain ⟨t, c, a⟩ := m
    cases t <;> cases c <;> simp [controlled] at this
  · simp only [List.mem_append]
    exact Or.inl (Or.inl (Or.inr (List.mem_map_of_mem hg)))

/-- a motor that does not move, with an ideal supply -/
def restingParts {Y U A C : Type} (pw : Power A C) : Parts ℝ Y U A (Y × ℝ) C Unit where
  solverT s := s.2
  solverY s := s.1
  integrate s _ t := (s.1, t)
  setInitial _ y t := (y, t)
  setAction := pw.setAction
  convert := pw.convert
  iSup := pw.iSup
  convReset := pw.reset
  getVoltage p _ _ := (p, [60])
  supplyReset p := (p, [60])

/-- For every converter argument there is a converter. -/
theorem powered_exists (tau : ℝ) (a : ActionType) (arg : ConvArg) :
    ∃ (A C : Type) (pw : Power A C) (c : C) (space : A → Prop), Powered tau a arg A C pw c space := by
  cases a <;> cases arg
  · exact ⟨_, _, _, _, _, .continuous _⟩
  · exact ⟨_, _, _, _, _, .contMulti _⟩
  · exact ⟨_, _, _, _, _, .finite _⟩
  · exact ⟨_, _, _, _, _, .finiteMulti _⟩

/-- For every motor there is a system, with a state of the right shape. -/
theorem drives_exists (t : MotorType) : ∃ D, Drives t D ∧ ∃ y, D.shape y := by
  cases t
  · exact ⟨_, .permExDc fun i => i.headD 0, ⟨[0], [0]⟩, rfl, rfl⟩
  · exact ⟨_, .extExDc fun i => i.headD 0, ⟨[0], [0, 0]⟩, rfl, rfl⟩
  · exact ⟨_, .seriesDc fun i => i.headD 0, ⟨[0], [0]⟩, rfl, rfl⟩
  · exact ⟨_, .shuntDc fun i => i.headD 0, ⟨[0], [0, 0]⟩, rfl, rfl⟩
  · exact ⟨_, .eesm fun _ => 0, ⟨[0], 0, 0, 0⟩, rfl⟩
  · exact ⟨_, .dfim 1 1 fun _ => 0, ⟨[0], 0, 0, 0⟩, rfl⟩
  · exact ⟨_, .scim fun _ => 0, ⟨[0], 0, 0, 0⟩, rfl⟩
  · exact ⟨_, .pmsm fun _ => 0, ⟨[0], 0, 0⟩, rfl⟩
  · exact ⟨_, .synRm fun _ => 0, ⟨[0], 0, 0⟩, rfl⟩

/-- Every registered environment, with motors that do not move, limits 2 and nominal values 1. -/
example (m : Motor) : ∃ (name : String) (d : Defaults) (D : Drive) (A C τ : Type) (space : A → Prop)
    (c : Setup D.Y D.U A (D.Y × ℝ) C Unit Unit τ) (x : World (D.Y × ℝ) C Unit Unit τ), make m.envId = some (name, d) ∧
    c.names = stateNames m.type ∧ c.limited = d.limited ∧ ∃ mods, build c = .ok mods ∧
      ∀ ops : List (Core.Op (World (D.Y × ℝ) C Unit Unit τ) A), (∀ op ∈ ops, Proper space op) →
        Conforms c (-1) 0 (-10) true (Core.run mods (Core.Env.init mods x) ops).2 := by
  obtain ⟨name, d, hd, hmatch, -⟩ := entry_of m
  obtain ⟨D, hD, y, hy⟩ := drives_exists d.motor
  obtain ⟨A, C, pw, c0, space, hpw⟩ := powered_exists d.tau d.action d.converter
  obtain ⟨τ, gen, new, reseeded, hg, ⟨s, hs⟩, hr⟩ := c115_generators demoRng (fun n => n) m hd
    (List.replicate (stateNames d.motor).length 2) (List.replicate (stateNames d.motor).length 1) 0
  obtain ⟨mods, h1, h2⟩ := c115_environment demoRng_ok m hd hD hpw (restingParts pw) ⟨rfl, rfl, rfl, rfl⟩
    ⟨fun _ _ _ => rfl, fun _ => rfl, fun _ _ _ h => h, fun _ _ _ h => h⟩ _ _ (by simp) (fun n hn => by
      simp only [Nominal, entry, List.getD_eq_getElem?_getD, List.getElem?_replicate]
      split_ifs <;> norm_num) (fun g : Unit => (g, y)) (fun _ => hy) (fun _ g => g) hg (fun _ s => s) (fun _ s => hr s) id
    (fun _ _ => rfl) 1 ⟨{ t := 0, k := 0, solver := (y, 0), conv := c0, supply := () }, (), s⟩ rfl hs rfl
  exact ⟨name, d, D, A, C, τ, space, _, _, hd, congrArg stateNames hmatch.motor, rfl, mods, h1, h2⟩

end

end GEM.Props
