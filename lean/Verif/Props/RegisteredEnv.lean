import Verif.Model.RegisteredEnv
import Verif.Props.WatchingEnv
import Verif.Props.WrappedRegistry

/-!
# C115, C133: the registered environments with the wrappers of their classes
-/

set_option linter.unusedSectionVars false

namespace GEM.Props

open GEM GEM.Registry GEM.Assembly GEM.Wrap GEM.Refs GEM.Reward GEM.Utils GEM.Sys
open GEM.Core (take)
open GEM.Constr

noncomputable section

variable {H Y U A B S C P G τ σ : Type}

/-- What the class of the environment appends to the state vector. -/
def classStates (t : MotorType) : List (String × ℝ × ℝ) := if t = .shuntDc then [("i_sum", -1, 1)] else []

/-- The values that are appended. -/
def classValues (t : MotorType) (s : List ℝ) : List ℝ :=
  if t = .shuntDc then [entry s ((stateNames t).idxOf "i_a") + entry s ((stateNames t).idxOf "i_e")] else []

theorem sums_listed : ∀ m ∈ motors, ∀ e ∈ make m.envId, e.2.currentSums = if e.2.motor = .shuntDc then [["i_a", "i_e"]] else [] := by
  decide +kernel

theorem sums_of (m : Motor) {name : String} {d : Defaults} (hd : make m.envId = some (name, d)) :
    d.currentSums = if d.motor = .shuntDc then [["i_a", "i_e"]] else [] := sums_listed m (mem_motors m) (name, d) hd


theorem wrap_ok (m : Motor) {name : String} {d : Defaults} (hd : make m.envId = some (name, d)) {p q : Plant σ A} :
    d.wrap p = .ok q ↔ d.motor ≠ .shuntDc ∧ q = p ∨
      d.motor = .shuntDc ∧ ∃ w, currentSum ["i_a", "i_e"] false p.ps = .ok w ∧ q = p.same w := by
  unfold Defaults.wrap
  rw [sums_of m hd]
  by_cases h : d.motor = .shuntDc
  · rw [if_pos h, List.foldlM_cons]
    cases hw : currentSum ["i_a", "i_e"] false p.ps with
    | error e => simp [h, Except.map, bind, Except.bind]
    | ok w => simp [h, Except.map, bind, Except.bind, pure, Except.pure, eq_comm]
  · rw [if_neg h]
    simp [h, pure, Except.pure, eq_comm]

theorem shunt_at {p : Plant σ A} (hp : p.ps.pos = enumPos (stateNames .shuntDc)) {w : PSys σ A}
    (hw : currentSum ["i_a", "i_e"] false p.ps = .ok w) : ∃ limit nominal, w = currentSumAt [2, 3] limit nominal p.ps := by
  obtain ⟨idx, limit, nominal, h, rfl⟩ := sum_positions hw
  have h1 : enumPos (stateNames .shuntDc) "i_a" = some 2 := by decide +kernel
  have h2 : enumPos (stateNames .shuntDc) "i_e" = some 3 := by decide +kernel
  rw [hp] at h
  cases h with
  | cons a h =>
    cases h with
    | cons b h =>
      cases h
      rw [h1] at a
      rw [h2] at b
      cases a
      cases b
      exact ⟨limit, nominal, rfl⟩

/-- C115 (systems): the class of the environment finds what it needs in the system of the motor. -/
theorem c115_system (m : Motor) {name : String} {d : Defaults} (hd : make m.envId = some (name, d)) (p : Parts ℝ Y U A S C P)
    (f : Frame ℝ Y U A) (rep : Y → List ℝ → List ℝ → Except Err (List ℝ)) (limits nominal : List ℝ)
    (hl : limits.length = (stateNames d.motor).length) (hl' : nominal.length = (stateNames d.motor).length) (start : G → G × Y)
    (seedSystem : ℕ → G → G) (gen : RefGen τ ℝ) (seedRef : ℕ → τ → τ) (lower : String → String) (nCb : ℕ) :
    ∃ q, d.wrap (bare (Registry.setup d p f rep limits start seedSystem gen seedRef lower nCb) nominal) = .ok q ∧
      q.ps.names = stateNames d.motor ++ (classStates d.motor).map (·.1) := by
  by_cases h : d.motor = .shuntDc
  · have h1 : position (enumPos (stateNames .shuntDc)) "i_a" = .ok 2 := by rfl
    have h2 : position (enumPos (stateNames .shuntDc)) "i_e" = .ok 3 := by rfl
    have h6 : (stateNames .shuntDc).length = 6 := rfl
    have hw : ∃ l n, currentSum ["i_a", "i_e"] false (bare (Registry.setup d p f rep limits start seedSystem gen seedRef lower nCb) nominal).ps
        = .ok (currentSumAt [2, 3] l n (bare (Registry.setup d p f rep limits start seedSystem gen seedRef lower nCb) nominal).ps) := by
      rw [h, h6] at hl hl'
      have g : ∀ v : List ℝ, v.length = 6 → ∃ x y, Wrap.getE v 2 = .ok x ∧ Wrap.getE v 3 = .ok y := fun v hv =>
        ⟨v[2], v[3], getE_lt (by omega), getE_lt (by omega)⟩
      obtain ⟨a, b, ha, hb⟩ := g limits hl
      obtain ⟨a', b', ha', hb'⟩ := g nominal hl'
      refine ⟨max a b, max a' b', ?_⟩
      simp [currentSum, bare, Registry.setup, h, h1, h2, ha, hb, ha', hb', bind, Except.bind, pure, Except.pure, reduce]
    obtain ⟨l, n, hw⟩ := hw
    exact ⟨_, (wrap_ok m hd).2 (.inr ⟨h, _, hw, rfl⟩), by simp [classStates, h, Plant.same, currentSumAt, bare, Registry.setup]⟩
  · exact ⟨_, (wrap_ok m hd).2 (.inl ⟨h, rfl⟩), by simp [classStates, h, bare, Registry.setup]⟩

theorem class_watching (m : Motor) {name : String} {d : Defaults} (hd : make m.envId = some (name, d)) {p q : Plant σ A}
    (hq : d.wrap p = .ok q) : Watching p q id (classStates d.motor) := by
  rcases (wrap_ok m hd).1 hq with ⟨h, rfl⟩ | ⟨h, w, hw, rfl⟩
  · rw [classStates, if_neg h]
    exact .none
  · rw [classStates, if_pos h]
    exact .sum p id [] _ _ w .none hw

/-- C116 also fails for shunt motors: `Motor.states` does not list the sum of the currents. -/
theorem c116_sum_violated (m : Motor) (h : m.type = .shuntDc) {name : String} {d : Defaults} (hd : make m.envId = some (name, d)) {p q : Plant σ A}
    (hc : Consistent p.ps) (hq : d.wrap p = .ok q) : "i_sum" ∈ q.ps.names ∧ "i_sum" ∉ m.states := by
  have hm : d.motor = .shuntDc := by
    obtain ⟨name', d', hd', hmatch, -⟩ := entry_of m
    cases hd.symm.trans hd'
    exact hmatch.motor.trans h
  refine ⟨?_, ?_⟩
  · rw [(watching_announces (class_watching m hd hq) hc).2.names, hm]
    simp [classStates]
  · have : ∀ m ∈ motors, "i_sum" ∉ m.states := by decide +kernel
    exact this m (mem_motors m)

theorem class_follows (m : Motor) {name : String} {d : Defaults} (hd : make m.envId = some (name, d)) {p q : Plant σ A}
    (hn : p.ps.names = stateNames d.motor) (hp : p.ps.pos = enumPos (stateNames d.motor)) (c : Consistent p.ps)
    (hq : d.wrap p = .ok q) :
    Mirrors p q id fun s s' => s.length = (stateNames d.motor).length ∧ s' = s ++ classValues d.motor s := by
  rcases (wrap_ok m hd).1 hq with ⟨h, rfl⟩ | ⟨h, w, hw, rfl⟩
  · have h0 := watching_follows (p₀ := q) .none c
    rw [hn] at h0
    have key : ∀ s s' : List ℝ, Longer (stateNames d.motor).length ([] : List (String × ℝ × ℝ)).length s s' →
        s.length = (stateNames d.motor).length ∧ s' = s ++ classValues d.motor s := by
      rintro s s' ⟨h1, e, h2, rfl⟩
      rw [List.length_nil, List.length_eq_zero_iff] at h2
      exact ⟨h1, by simp [h2, classValues, h]⟩
    exact ⟨fun st => paired_imp (h0.reset st) id fun a b _ _ => key a b, fun st a => paired_imp (h0.simulate st a) id fun a b _ _ => key a b,
      h0.seed, h0.steps⟩
  · rw [h] at hp hn
    obtain ⟨l, n, rfl⟩ := shunt_at hp hw
    have key : ∀ r : Call σ (List ℝ), (∀ v, r.2 = .ok v → v.length = p.ps.names.length) → Paired (fun a b => id b = a)
        (fun s s' => s.length = (stateNames d.motor).length ∧ s' = s ++ classValues d.motor s) r (post r (withSum [2, 3])) := by
      rintro ⟨st, x⟩ hr
      cases x with
      | error e => exact ⟨rfl, rfl⟩
      | ok v =>
        have hv := hr v rfl
        have h6 : (stateNames .shuntDc).length = 6 := rfl
        have e1 : (stateNames .shuntDc).idxOf "i_a" = 2 := by decide +kernel
        have e2 : (stateNames .shuntDc).idxOf "i_e" = 3 := by decide +kernel
        rw [hn, h6] at hv
        have g2 : Wrap.getE v 2 = .ok v[2] := getE_lt (by omega)
        have g3 : Wrap.getE v 3 = .ok v[3] := getE_lt (by omega)
        have : withSum [2, 3] v = .ok (v ++ [v[2] + v[3]]) := by
          simp [withSum, g2, g3, bind, Except.bind, pure, Except.pure, Except.map]
        simp only [post, Except.bind, this]
        refine ⟨rfl, by rw [h, h6]; exact hv, ?_⟩
        simp [classValues, h, e1, e2, entry, List.getD_eq_getElem?_getD, hv]
    exact ⟨fun st => key _ (c.reset st), fun st a => key _ (c.simulate st a), fun _ _ => rfl, fun _ => rfl⟩

/-! ## The reference generators -/

section generators

variable {R : Rng H} {t : MotorType} {ext : List String} {limits nominal low' high' limits' nominal' : List ℝ}

theorem wiener_less (hext : ∀ k ∈ ext, k ∉ stateNames t) (hl : limits.length = (stateNames t).length)
    (hn : nominal.length = (stateNames t).length) (h1 : low t <+: low') (h2 : high t <+: high') (h3 : limits <+: limits')
    (h4 : nominal <+: nominal') {g : WienerArg} (hg : g.state ∈ stateNames t) {c : SubCfg H ℝ}
    (h : WienerIn R (stateNames t ++ ext) low' high' limits' nominal' g c) :
    ∃ c₀, WienerOf R t limits nominal g c₀ ∧ Unused c₀ = Unused c ∧
      Enlarges (stateNames t).length ext.length (· = ·) (subGen c₀) (subGen c) := by
  have hi := List.idxOf_lt_length_of_mem hg
  have hidx : (stateNames t ++ ext).idxOf g.state = (stateNames t).idxOf g.state := List.idxOf_append_of_mem hg
  obtain ⟨m0, hm0⟩ : ∃ m : List Bool, m = (stateNames t).map fun n => decide (n = g.state) := ⟨_, rfl⟩
  have hlen : m0.length = (stateNames t).length := by rw [hm0]; simp
  have hmask : c.mask = m0 ++ List.replicate ext.length false := by
    have := h.mask
    rw [Refs.mask, if_pos (List.mem_append_left _ hg), Except.ok.injEq] at this
    rw [← this, List.map_append, hm0]
    congr 1
    refine List.eq_replicate_iff.2 ⟨by simp, fun b hb => ?_⟩
    obtain ⟨k, hk, rfl⟩ := List.mem_map.1 hb
    have : k ≠ g.state := fun e => hext k hk (e ▸ hg)
    simpa using this
  refine ⟨{ c with mask := m0 }, ⟨h.name, ?_, ?_, h.length, h.make, h.initial⟩, rfl, ?_⟩
  · rw [Refs.mask, if_pos hg, hm0]
  · have := h.margin
    rw [hidx, prefix_entry h1 (by rw [(low_spec t).1]; exact hi), prefix_entry h2 (by simpa [high] using hi),
      prefix_entry h3 (by rw [hl]; exact hi), prefix_entry h4 (by rw [hn]; exact hi)] at this
    exact this
  · have := enlarges_sub { c with mask := m0 } ext.length
    rw [← hlen]
    have e : ({ c with mask := m0 ++ List.replicate ext.length false } : SubCfg H ℝ) = c := by rw [← hmask]
    rw [← e]
    exact this

theorem multi_less {N n : ℕ} {gs gs' : List (RefGen τ ℝ)} (h : List.Forall₂ (Enlarges N n (· = ·)) gs gs') {M' : RefGen (List τ) ℝ}
    (hM : multiGen (N + n) gs' = .ok M') : ∃ M, multiGen N gs = .ok M ∧ Enlarges N n (· = ·) M M' := by
  obtain ⟨hne, hc, -⟩ := multiGen_ok hM
  have hne' : gs ≠ [] := by
    rintro rfl
    cases h
    exact hne rfl
  have hok : (List.range N).all (fun i => decide (countTrue (gs.map (·.referenced)) i < 2)) = true := by
    rw [List.all_eq_true]
    intro i hi
    have := hc i (by rw [List.mem_range] at hi; omega)
    rw [countTrue_padded h, if_pos (List.mem_range.1 hi)] at this
    simpa using this
  have : ∃ M, multiGen N gs = .ok M := by
    simp only [multiGen, multiMask, if_neg hne', hok, if_true, Except.map]
    exact ⟨_, rfl⟩
  obtain ⟨M, hM0⟩ := this
  obtain ⟨M'', h1, h2⟩ := enlarges_multi h hM0
  rw [h1, Except.ok.injEq] at hM
  subst hM
  refine ⟨M, hM0, ?_⟩
  rwa [List.forall₂_eq_eq_eq] at h2

/-- The default generators of a system with more states are those of the system of the motor, with longer references. -/
theorem generates_less (hext : ∀ k ∈ ext, k ∉ stateNames t) (hl : limits.length = (stateNames t).length)
    (hn : nominal.length = (stateNames t).length) (h1 : low t <+: low') (h2 : high t <+: high') (h3 : limits <+: limits')
    (h4 : nominal <+: nominal') {arg : RefArg} (hk : ∀ g ∈ arg.list, g.state ∈ stateNames t) {gen' : RefGen τ ℝ} {new : τ → Prop}
    {reseeded : τ → τ → Prop} (h : GeneratesIn R (stateNames t ++ ext) low' high' limits' nominal' arg τ gen' new reseeded) :
    ∃ gen, Generates R t limits nominal arg τ gen new reseeded ∧ Enlarges (stateNames t).length ext.length (· = ·) gen gen' := by
  cases h with
  | one g c h =>
    obtain ⟨c₀, e1, e2, e3⟩ := wiener_less hext hl hn h1 h2 h3 h4 (hk g (by simp [RefArg.list])) h
    rw [← e2]
    exact ⟨_, .one g c₀ e1, e3⟩
  | multiple gs cs h M hM =>
    have key : ∃ cs₀, List.Forall₂ (WienerOf R t limits nominal) gs cs₀ ∧ List.Forall₂ (Unused (H := H)) cs₀ = List.Forall₂ Unused cs ∧
        List.Forall₂ (Enlarges (stateNames t).length ext.length (· = ·)) (cs₀.map subGen) (cs.map subGen) := by
      replace hk : ∀ g ∈ gs, g.state ∈ stateNames t := hk
      clear hM
      induction h with
      | nil => exact ⟨[], .nil, rfl, .nil⟩
      | @cons g c gs cs h hs ih =>
        obtain ⟨c₀, e1, e2, e3⟩ := wiener_less hext hl hn h1 h2 h3 h4 (hk g List.mem_cons_self) h
        obtain ⟨cs₀, f1, f2, f3⟩ := ih (fun g hg => hk g (List.mem_cons_of_mem _ hg))
        refine ⟨c₀ :: cs₀, .cons e1 f1, ?_, .cons e3 f3⟩
        funext l
        cases l with
        | nil => simp
        | cons a l =>
          have := congrFun f2 l
          simp [List.forall₂_cons, e2, this]
    obtain ⟨cs₀, f1, f2, f3⟩ := key
    rw [List.length_append] at hM
    obtain ⟨M₀, g1, g2⟩ := multi_less f3 hM
    rw [← f2]
    exact ⟨M₀, .multiple gs cs₀ f1 M₀ g1, g2⟩

end generators

/-! ## The environments -/

theorem class_added (d : Defaults) {lower : String → String}
    (hlower : ∀ n ∈ stateNames d.motor ++ (classStates d.motor).map (·.1), lower n = n) : Added d.motor lower (classStates d.motor) := by
  by_cases h : d.motor = .shuntDc
  · refine ⟨by simp [classStates, h], fun e he => ?_, fun e he => hlower _ (List.mem_append_right _ (List.mem_map_of_mem he)), fun e he => ?_⟩
    all_goals
      rw [classStates, if_pos h, List.mem_singleton] at he
      subst he
    · rw [h]
      decide +kernel
    · norm_num
  · refine ⟨by simp [classStates, h], ?_, ?_, ?_⟩
    all_goals
      intro e he
      simp [classStates, h] at he

/-- C115 (environments): every registered environment with its default arguments can be constructed and always answers.

For every motor, control task and kind of actions; the system of the motor with any torque function, the default converter, any ideal
supply, solver and initial states with one voltage and states of the right shape; inside the wrapper of the class, if there is one (`q`,
which exists, `c115_system`); the default reference generator with any random numbers (which exists, `c124_generators`); limits that fit to
the nominal values of the referenced states (C117).  In every history of resets and steps with actions of the action space, the resets and
the steps of running episodes answer with observations inside the observation space (but for states outside the state space), an episode
ends exactly if a default constraint is violated, the reward is then -10, and otherwise between -1 and 0 while the state is inside the
state space. -/
theorem c115_registered {R : Rng H} (hR : RngOk R) (m : Motor) {name : String} {d : Defaults} (hd : make m.envId = some (name, d))
    {D : Drive} (hD : Drives d.motor D) {pw : Power A C} {conv : C} {space : A → Prop}
    (hpw : Powered d.tau d.action d.converter A C pw conv space) (p : Parts ℝ D.Y D.U A S C P) (hu : Uses p pw) (hs : Shaped p D.shape)
    (limits nominal : List ℝ) (hl : limits.length = (stateNames d.motor).length) (hl' : nominal.length = (stateNames d.motor).length)
    (hn : NominalOk d.motor limits nominal (d.references.list.map (·.state)))
    (start : G → G × D.Y) (hstart : ∀ g, D.shape (start g).2) (seedSystem : ℕ → G → G) (lower : String → String)
    (hlower : ∀ n ∈ stateNames d.motor ++ (classStates d.motor).map (·.1), lower n = n) (nCb : ℕ) (gen : RefGen τ ℝ) (seedRef : ℕ → τ → τ)
    {q : Plant (St ℝ S C P × G) A}
    (hq : d.wrap (bare (Registry.setup d p (D.frame A) D.rep limits start seedSystem gen seedRef lower nCb) nominal) = .ok q)
    {new : τ → Prop} {reseeded : τ → τ → Prop}
    (hg : GeneratesIn R q.ps.names q.ps.low q.ps.high q.ps.limits q.ps.nominal d.references τ gen new reseeded)
    (hseed : ∀ n s, reseeded s (seedRef n s)) (x : (St ℝ S C P × G) × τ) (hx : x.1.1.conv = conv) (hf : new x.2) (hk : x.1.1.k = 0) :
    q.ps.names = stateNames d.motor ++ (classStates d.motor).map (·.1) ∧
    (((Registry.setup d p (D.frame A) D.rep limits start seedSystem gen seedRef lower nCb).around q).announced.limited = d.limited ∧
      ((Registry.setup d p (D.frame A) D.rep limits start seedSystem gen seedRef lower nCb).around q).announced.squares = d.squares) ∧
    ∃ mods, wbuild ((Registry.setup d p (D.frame A) D.rep limits start seedSystem gen seedRef lower nCb).around q) = .ok mods ∧
      ∀ ops : List (Core.Op ((St ℝ S C P × G) × τ) A), (∀ op ∈ ops, Proper space op) →
        Conforms ((Registry.setup d p (D.frame A) D.rep limits start seedSystem gen seedRef lower nCb).around q).announced (-1) 0 (-10) true
          (Core.run mods (Core.Env.init mods x) ops).2 :=
  c124_registered hR m hd hD hpw p hu hs limits nominal hl hl' hn start hstart seedSystem lower
    (fun n h => hlower n (List.mem_append_left _ h)) nCb gen seedRef (watching_wrapping (class_watching m hd hq) space)
    (class_added d hlower) hg hseed x hx hf hk

/-- C133 (registered environments): what the class of an environment puts around the system of the motor only adds the sum of the currents
to the states of shunt motors.  The registered environment, whatever the calls, answers like the environment without that wrapper; what the
other claims say about the latter therefore holds for it. -/
theorem c133_registered {R : Rng H} (m : Motor) {name : String} {d : Defaults} (hd : make m.envId = some (name, d))
    {D : Drive} (p : Parts ℝ D.Y D.U A S C P) (limits nominal : List ℝ) (hl : limits.length = (stateNames d.motor).length)
    (hl' : nominal.length = (stateNames d.motor).length) (start : G → G × D.Y) (seedSystem : ℕ → G → G) (lower : String → String)
    (hlower : ∀ n ∈ stateNames d.motor, lower n = n) (nCb : ℕ) (gen' : RefGen τ ℝ) (seedRef : ℕ → τ → τ)
    {q : Plant (St ℝ S C P × G) A}
    (hq : d.wrap (bare (Registry.setup d p (D.frame A) D.rep limits start seedSystem gen' seedRef lower nCb) nominal) = .ok q)
    {new : τ → Prop} {reseeded : τ → τ → Prop}
    (hg : GeneratesIn R q.ps.names q.ps.low q.ps.high q.ps.limits q.ps.nominal d.references τ gen' new reseeded) :
    ∃ gen, Generates R d.motor limits nominal d.references τ gen new reseeded ∧
      ∃ E E', build (Registry.setup d p (D.frame A) D.rep limits start seedSystem gen seedRef lower nCb) = .ok E ∧
        wbuild ((Registry.setup d p (D.frame A) D.rep limits start seedSystem gen' seedRef lower nCb).around q) = .ok E' ∧
        ∀ (x : World S C P G τ) (uses : List (Use A)),
          List.Forall₂ (Agree fun s s' => s.length = (stateNames d.motor).length ∧ s' = s ++ classValues d.motor s)
            (outcomes E (Core.Env.init E x) uses) (outcomes E' (Core.Env.init E' ((x.sys, x.draws), x.ref)) uses) := by
  obtain ⟨name', d', hd', hmatch, hfit⟩ := entry_of m
  rw [hd, Option.some.injEq, Prod.mk.injEq] at hd'
  obtain ⟨rfl, rfl⟩ := hd'
  have hcon : ∀ g : RefGen τ ℝ, Consistent (bare (Registry.setup d p (D.frame A) D.rep limits start seedSystem g seedRef lower nCb) nominal).ps :=
    fun g => bare_consistent _ nominal hl hl' (low_spec d.motor).1 (by simp [Registry.setup, high])
  obtain ⟨cq, ap⟩ := watching_announces (class_watching m hd hq) (hcon gen')
  have hnew : ∀ e ∈ classStates d.motor, e.1 ∉ stateNames d.motor := (class_added (lower := id) d fun _ _ => rfl).new
  have hnames : q.ps.names = stateNames d.motor ++ (classStates d.motor).map fun e : String × ℝ × ℝ => e.1 := ap.names
  rw [hnames] at hg
  obtain ⟨gen, g1, g2⟩ := generates_less (fun k hk => by obtain ⟨e, he, rfl⟩ := List.mem_map.1 hk; exact hnew e he) hl hl'
    ⟨_, ap.low.symm⟩ ⟨_, ap.high.symm⟩ ap.limits ap.nominal (fun g hg => hfit.known _ (by
      simp only [List.mem_append]
      exact Or.inl (Or.inl (Or.inr (List.mem_map_of_mem hg))))) hg
  rw [List.length_map] at g2
  obtain ⟨w, mo, idx, hm, -, -⟩ := default_modules hfit hmatch.total p limits start seedSystem gen seedRef lower hlower nCb
  have hna : "all_states" ∉ d.limited := by
    intro h
    have h1 : "all_states" ∈ stateNames d.motor := hfit.known _ (by simp only [List.mem_append]; exact Or.inl (Or.inr h))
    revert h1
    generalize d.motor = t
    cases t <;> decide +kernel
  obtain ⟨w', mo', idx', hm', -, key⟩ := renewed_lock (Registry.setup d p (D.frame A) D.rep limits start seedSystem gen seedRef lower nCb) nominal
    (hcon gen) (q := q) (inner := id) (ext := classStates d.motor) cq ⟨ap.names, ap.low, ap.high, ap.limits, ap.nominal, ap.tau⟩
    (Q := fun s s' => s.length = (stateNames d.motor).length ∧ s' = s ++ classValues d.motor s)
    (fun s s' h => ⟨h.1, classValues d.motor s, by unfold classValues classStates; split_ifs <;> rfl, h.2⟩)
    (let f := class_follows m hd rfl rfl (hcon gen') hq; ⟨f.reset, f.simulate, f.seed, f.steps⟩) hnew (gen' := gen') (T := (· = ·)) g2
    (seedRef' := seedRef) (fun k t t' h => by rw [h]; rfl) hna _ _ _ _ _ _ rfl ⟨Or.inl ⟨_, rfl⟩, Or.inr ⟨_, rfl⟩⟩ hm
  have hV : ∀ s s' : List ℝ, (s.length = (stateNames d.motor).length ∧ s' = s ++ classValues d.motor s) →
      (take s idx).length = (stateNames d.motor).length ∧ take s' idx' = take s idx ++ classValues d.motor (take s idx) := by
    rintro s s' ⟨h1, rfl⟩
    have e1 : take s idx = s := by
      rw [observation_of hm]
      exact (shown_prefix (stateNames_nodup d.motor) h1.ge).trans (List.take_of_length_le h1.le)
    have hlen : q.ps.names.length = (s ++ classValues d.motor s).length := by
      rw [hnames, List.length_append, List.length_append, h1]
      congr 1
      unfold classValues classStates
      split_ifs <;> rfl
    have e2 : take (s ++ classValues d.motor s) idx' = s ++ classValues d.motor s := by
      rw [observation_of hm']
      refine (shown_prefix (names := q.ps.names) ?_ hlen.le).trans (List.take_of_length_le hlen.ge)
      rw [hnames]
      exact added_nodup (class_added (lower := id) d fun _ _ => rfl)
    rw [e1, e2]
    exact ⟨h1, rfl⟩
  have hL := key (fun s s' => s.length = (stateNames d.motor).length ∧ s' = s ++ classValues d.motor s) hV
  refine ⟨gen, g1, _, _, by simp only [build, hm, Except.map], ?_, fun x uses => inStep_outcomes hL uses (inStep_fire hL ⟨⟨rfl, rfl⟩, rfl⟩ _ _)⟩
  show wbuild _ = _
  simp only [wbuild]
  rw [show ((Registry.setup d p (D.frame A) D.rep limits start seedSystem gen' seedRef lower nCb).around q)
    = (Registry.setup d p (D.frame A) D.rep limits start seedSystem gen seedRef lower nCb).renewed q gen' seedRef from rfl, hm']
  rfl

/-! ## Constraints on all states -/

/-- a system with two currents that stay at four fifths of their limits, in an environment with the constraint `all_states` -/
def twoCurrents : Setup Unit Unit ℕ Unit Unit Unit Unit Unit where
  p := silent ℕ
  f := { iIn := fun _ => [], action := fun _ a => a, loopU := fun _ _ => .ok (), lastU := fun _ _ => .ok (),
         report := fun _ _ _ _ => .ok [4 / 5, 4 / 5] }
  rep _ _ _ := .ok [4 / 5, 4 / 5]
  tau := 1
  limits := [1, 1]
  names := ["i_a", "i_e"]
  low := [-1, -1]
  high := [1, 1]
  start g := (g, ())
  seedSystem _ g := g
  gen := constGen "i_a" [true, false] 0
  seedRef _ t := t
  lower := id
  allStates := "all_states"
  wse := Wse.init (some (.dict [("i_a", 1)])) false none (9 / 10) (.scalar 1) (.num 0)
  limited := ["all_states"]
  squares := []
  filter := none
  nCb := 0

theorem reset_and_step {σ A : Type} {C : Core.Comps σ A (List ℝ) (List ℝ) (List ℝ) ℝ} (h0 : C.nCb = 0) {s s' : List ℝ} {d : ℝ} (a : A)
    (h1 : ∀ x, ∃ x', C.psReset x = (x', .ok s)) (h2 : ∀ x, ∃ x' ro, C.refReset x s = (x', .ok ro))
    (h3 : ∀ x, ∃ x', C.simulate x a = (x', .ok s')) (h4 : ∀ x, ∃ x' r, C.getRef x s' = (x', .ok r)) (h5 : ∀ x, C.check x s' = (x, .ok d))
    {P : List ℝ → Prop} (hP : ∀ x x' r, C.getRef x s' = (x', .ok r) → P r)
    (h6 : ∀ x r k, P r → ∃ x' y, C.reward x s' r k a d = (x', .ok y)) (h7 : ∀ x, ∃ x' o, C.refObs x s' = (x', .ok o)) (x : σ) :
    ∃ r o reward, outcomes C (Core.Env.init C x) [.reset 0, .step a] = [.resetOk r, .step (.done ⟨o, reward, decide (1 ≤ d), false⟩)] := by
  have hfire : ∀ (env : Core.Env σ A (List ℝ) (List ℝ) (List ℝ) ℝ) e, env.fire C e = env := by
    intro env e
    simp [Core.Env.fire, h0]
  obtain ⟨x1, e1⟩ := h1 (C.seed 0 x)
  obtain ⟨x2, ro, e2⟩ := h2 x1
  obtain ⟨x3, e3⟩ := h3 (C.rewReset x2 s ro.1)
  obtain ⟨x4, r, e4⟩ := h4 x3
  obtain ⟨x5, y, e5⟩ := h6 x4 r (C.psK x4) (hP _ _ _ e4)
  obtain ⟨x6, o, e6⟩ := h7 x5
  exact ⟨(C.observe s, ro.2), (C.observe s', o), y, by
    simp [outcomes, Use.op, Core.run, Core.apply, Core.Env.reset, Core.Env.step, Core.Env.stepBody, Core.Env.call, Call.bind, hfire,
      Core.Env.init, e1, e2, e3, e4, h5, e5, e6]⟩

/-- Environments with the constraint `all_states`: after a step, the episode has ended exactly if an entry of the state exceeds its limit. -/
theorem all_states_step {c : Setup Y U A S C P G τ} {w : Wse String} {m : Monitor (List ℝ) ℝ} {idx : List ℕ} (hc : Coherent c)
    (hm : modules c = .ok (w, m, idx)) (hl : c.limited = [c.allStates]) (hs : c.squares = []) {s : List ℝ}
    (h : s.length = c.names.length) : m.check s = .ok (if s.any (fun x => decide (1 < |x|)) then 1 else 0) := by
  obtain ⟨d, d1, d2, d3⟩ := degree_of hc hm s h
  rw [d1]
  congr 1
  have : Violates c.lower c.allStates c.names c.limited c.squares s ↔ s.any (fun x => decide (1 < |x|)) = true := by
    simp only [Violates, hl, hs, List.not_mem_nil, false_and, exists_false, or_false, List.mem_singleton, List.any_eq_true,
      decide_eq_true_eq, exists_eq_left, true_or, and_true]
    constructor
    · rintro ⟨i, n, x, -, h2, h3⟩
      exact ⟨x, List.mem_of_getElem? h2, h3⟩
    · rintro ⟨x, h1, h2⟩
      obtain ⟨i, hi, rfl⟩ := List.mem_iff_getElem.1 h1
      exact ⟨i, c.names[i], s[i], by simp [← h, hi], by simp, h2⟩
  rw [this] at d3
  split_ifs with h1
  · exact d3.2 h1
  · exact d2.resolve_right fun h => h1 (d3.1 h)

/-- the environment with the sum of the currents -/
def withTheirSum : WSetup (St ℝ Unit Unit Unit × Unit) ℕ Unit :=
  twoCurrents.renewed ((bare twoCurrents [1, 1]).same (currentSumAt [0, 1] 1 1 (bare twoCurrents [1, 1]).ps))
    (constGen "i_a" [true, false, false] 0) twoCurrents.seedRef

theorem currents_coherent : Coherent twoCurrents ∧ Coherent withTheirSum.announced := by
  refine ⟨⟨⟨rfl, rfl, rfl, fun i hi => ?_⟩, by decide +kernel, fun _ _ => rfl, by simp [twoCurrents], _, _, _, _, _, _, rfl, ?_, ?_, by norm_num, by simp⟩,
    ⟨⟨rfl, rfl, rfl, fun i hi => ?_⟩, ?_, fun _ _ => rfl, by simp [withTheirSum, WSetup.announced, Setup.renewed, twoCurrents], _, _, _, _, _, _, rfl, ?_, ?_,
      by norm_num, by simp⟩⟩
  · replace hi : i < 2 := hi
    show entry [-1, -1] i < entry [1, 1] i
    interval_cases i <;> norm_num [entry]
  · simp [NonnegArg, Nonneg]
  · simp [Nonneg]
  · replace hi : i < 3 := hi
    show entry [-1, -1, -1] i < entry [1, 1, 1] i
    interval_cases i <;> norm_num [entry]
  · show ["i_a", "i_e", "i_sum"].Nodup
    decide +kernel
  · simp [NonnegArg, Nonneg]
  · simp [Nonneg]

theorem currents_modules : (∃ y, modules twoCurrents = .ok y) ∧ ∃ y, modules withTheirSum.announced = .ok y := by
  have hw1 : ∃ w, setModules twoCurrents.lower twoCurrents.wse ⟨twoCurrents.names, twoCurrents.low, twoCurrents.high,
      twoCurrents.gen.referenced⟩ = .ok w := by
    simp [twoCurrents, setModules, Wse.init, setStateArray, weightArray, Except.map, finish, violationOf,
      stateDictToStateArray, lookup, defaultViolation]
    norm_num
  have hw2 : ∃ w, setModules withTheirSum.announced.lower withTheirSum.announced.wse ⟨withTheirSum.announced.names, withTheirSum.announced.low,
      withTheirSum.announced.high, withTheirSum.announced.gen.referenced⟩ = .ok w := by
    simp [withTheirSum, Setup.renewed, twoCurrents, bare, WSetup.announced, setModules, Wse.init, setStateArray, weightArray, Except.map, finish, violationOf, Plant.same,
      currentSumAt, stateDictToStateArray, lookup, defaultViolation]
    norm_num
  constructor
  · obtain ⟨x, hx⟩ := (c114_constructed twoCurrents (fun _ _ => rfl) hw1).2 ⟨Or.inl List.mem_cons_self, by simp [twoCurrents], fun n hn => hn⟩
    unfold build at hx
    cases hm : modules twoCurrents with
    | error e => simp [hm, Except.map] at hx
    | ok z => exact ⟨z, rfl⟩
  · obtain ⟨x, hx⟩ := (c114_constructed withTheirSum.announced (fun _ _ => rfl) hw2).2 ⟨Or.inl List.mem_cons_self,
      by simp [withTheirSum, WSetup.announced, Setup.renewed, twoCurrents], fun n hn => hn⟩
    unfold build at hx
    cases hm : modules withTheirSum.announced with
    | error e => simp [hm, Except.map] at hx
    | ok z => exact ⟨z, rfl⟩

/-- C133 is violated by environments with the constraint `all_states`: with a `CurrentSumProcessor`, the episode ends where it goes on without
it. -/
theorem c133_violated : Watching (bare twoCurrents [1, 1]) withTheirSum.plant id [("i_sum", -1, 1)] ∧
    Enlarges 2 1 (· = ·) twoCurrents.gen withTheirSum.gen ∧
    ∃ E E', build twoCurrents = .ok E ∧ wbuild withTheirSum = .ok E' ∧
      ∀ x, (∃ r o reward, outcomes E (Core.Env.init E x) [.reset 0, .step 0] = [.resetOk r, .step (.done ⟨o, reward, false, false⟩)]) ∧
        ∃ r o reward, outcomes E' (Core.Env.init E' ((x.sys, x.draws), x.ref)) [.reset 0, .step 0]
          = [.resetOk r, .step (.done ⟨o, reward, true, false⟩)] := by
  have hw : currentSum ["i_a", "i_e"] false (bare twoCurrents [1, 1]).ps = .ok (currentSumAt [0, 1] 1 1 (bare twoCurrents [1, 1]).ps) := by
    have h1 : position (enumPos ["i_a", "i_e"]) "i_a" = .ok 0 := rfl
    have h2 : position (enumPos ["i_a", "i_e"]) "i_e" = .ok 1 := rfl
    simp [currentSum, bare, twoCurrents, h1, h2, bind, Except.bind, pure, Except.pure, reduce, Wrap.getE]
  refine ⟨.sum _ id [] _ _ _ .none hw, enlarges_const "i_a" [true, false] 1 0, ?_⟩
  obtain ⟨⟨⟨w, m, idx⟩, hm⟩, ⟨w', m', idx'⟩, hm'⟩ := currents_modules
  obtain ⟨hc, hc'⟩ := currents_coherent
  have d1 := all_states_step hc hm rfl rfl (s := [4 / 5, 4 / 5]) rfl
  have d2 := all_states_step hc' hm' rfl rfl (s := [4 / 5, 4 / 5, 8 / 5]) rfl
  obtain ⟨lo, hi, v, -, -, r1⟩ := reward_of hc hm
  obtain ⟨lo', hi', v', -, -, r2⟩ := reward_of hc' hm'
  have b1 : ([4 / 5, 4 / 5] : List ℝ).any (fun x => decide (1 < |x|)) = false := by
    simp only [List.any_cons, List.any_nil, Bool.or_false, Bool.or_self, decide_eq_false_iff_not]
    rw [abs_of_pos] <;> norm_num
  have b2 : ([4 / 5, 4 / 5, 8 / 5] : List ℝ).any (fun x => decide (1 < |x|)) = true := by
    simp only [List.any_cons, List.any_nil, Bool.or_false, Bool.or_eq_true, decide_eq_true_eq]
    right; right
    rw [abs_of_pos] <;> norm_num
  rw [b1] at d1
  rw [b2] at d2
  simp only [Bool.false_eq_true, if_false, if_true] at d1 d2
  have s1 : ∀ st, ((bare twoCurrents [1, 1]).ps.reset st).2 = .ok [4 / 5, 4 / 5] := fun st => by
    simp [bare, twoCurrents, Sys.reset, silent, divLimits, Except.bind]
  have s2 : ∀ st, ((bare twoCurrents [1, 1]).ps.simulate st 0).2 = .ok [4 / 5, 4 / 5] := fun st => by
    simp [bare, twoCurrents, Sys.simulate, silent, divLimits, Except.bind, pieces, piece, Call.bind]
  have s3 : withSum [0, 1] [4 / 5, 4 / 5] = .ok [4 / 5, 4 / 5, 8 / 5] := by
    simp [withSum, Wrap.getE, bind, Except.bind, pure, Except.pure, Except.map]
    norm_num
  refine ⟨comps twoCurrents w m idx, wcomps withTheirSum w' m' idx', by simp only [build, hm, Except.map], by simp only [wbuild, hm', Except.map],
    fun x => ⟨?_, ?_⟩⟩
  · have := reset_and_step (C := comps twoCurrents w m idx) rfl (s := [4 / 5, 4 / 5]) (s' := [4 / 5, 4 / 5]) (d := 0) 0
      (fun y => ⟨((comps twoCurrents w m idx).psReset y).1, Prod.ext rfl (s1 (y.sys, y.draws))⟩)
      (fun y => ⟨_, _, rfl⟩) (fun y => ⟨((comps twoCurrents w m idx).simulate y 0).1, Prod.ext rfl (s2 (y.sys, y.draws))⟩) (fun y => ⟨_, _, rfl⟩)
      (fun y => by simp only [comps, d1]) (P := fun r => r = [0, 0]) (fun y y' r h => by
        simp only [comps, twoCurrents, constGen, place, Prod.mk.injEq, Except.ok.injEq] at h
        simp [← h.2])
      (fun y r k hr => by
        obtain ⟨v, hv, -⟩ := r1 [4 / 5, 4 / 5] r rfl (by subst hr; constructor <;> simp [twoCurrents]) 0 (Or.inl rfl)
        exact ⟨y, v, by simp only [comps, hv]⟩) (fun y => ⟨_, _, rfl⟩) x
    rwa [decide_eq_false (by norm_num)] at this
  · have := reset_and_step (C := wcomps withTheirSum w' m' idx') rfl (s := [4 / 5, 4 / 5, 8 / 5]) (s' := [4 / 5, 4 / 5, 8 / 5]) (d := 1) 0
      (fun y => ⟨((wcomps withTheirSum w' m' idx').psReset y).1, Prod.ext rfl (by
        show (((bare twoCurrents [1, 1]).ps.reset y.1).2.bind (withSum [0, 1])) = _
        rw [s1]; exact s3)⟩)
      (fun y => ⟨_, _, rfl⟩) (fun y => ⟨((wcomps withTheirSum w' m' idx').simulate y 0).1, Prod.ext rfl (by
        show (((bare twoCurrents [1, 1]).ps.simulate y.1 0).2.bind (withSum [0, 1])) = _
        rw [s2]; exact s3)⟩) (fun y => ⟨_, _, rfl⟩) (fun y => by simp only [wcomps, d2]) (P := fun r => r = [0, 0, 0]) (fun y y' r h => by
        simp only [wcomps, withTheirSum, Setup.renewed, constGen, place, Prod.mk.injEq, Except.ok.injEq] at h
        simp [← h.2])
      (fun y r k hr => by
        obtain ⟨v, hv, -⟩ := r2 [4 / 5, 4 / 5, 8 / 5] r rfl (by
          subst hr; constructor <;> simp [withTheirSum, WSetup.announced, Setup.renewed, Plant.same, currentSumAt, bare, twoCurrents]) 1 (Or.inr rfl)
        exact ⟨y, v, by simp only [wcomps, hv]⟩) (fun y => ⟨_, _, rfl⟩) ((x.sys, x.draws), x.ref)
    simpa using this

/-- `c115_registered` and `c133_registered` apply to the environments of all motors. -/
example (m : Motor) : ∃ (name : String) (d : Defaults) (D : Drive) (A C τ : Type) (space : A → Prop)
    (c : WSetup (St ℝ (D.Y × ℝ) C Unit × Unit) A τ) (c₀ : Setup D.Y D.U A (D.Y × ℝ) C Unit Unit τ) (x : World (D.Y × ℝ) C Unit Unit τ),
    make m.envId = some (name, d) ∧ c.plant.ps.names = stateNames m.type ++ (classStates m.type).map (·.1) ∧
    ∃ E E', build c₀ = .ok E ∧ wbuild c = .ok E' ∧
      (∀ ops : List (Core.Op ((St ℝ (D.Y × ℝ) C Unit × Unit) × τ) A), (∀ op ∈ ops, Proper space op) →
        Conforms c.announced (-1) 0 (-10) true (Core.run E' (Core.Env.init E' ((x.sys, x.draws), x.ref)) ops).2) ∧
      ∀ uses : List (Use A), List.Forall₂ (Agree fun s s' => s.length = (stateNames d.motor).length ∧ s' = s ++ classValues d.motor s)
        (outcomes E (Core.Env.init E x) uses) (outcomes E' (Core.Env.init E' ((x.sys, x.draws), x.ref)) uses) := by
  obtain ⟨name, d, hd, hmatch, -⟩ := entry_of m
  obtain ⟨D, hD, y, hy⟩ := drives_exists d.motor
  obtain ⟨A, C, pw, c0, space, hpw⟩ := powered_exists d.tau d.action d.converter
  obtain ⟨q, hq, hq1⟩ := c115_system m hd (restingParts pw) (D.frame A) D.rep (List.replicate (stateNames d.motor).length 2)
    (List.replicate (stateNames d.motor).length 1) (by simp) (by simp) (fun g : Unit => (g, y)) (fun _ g => g)
    (constGen "omega" [] 0) (fun _ s => s) id 1
  obtain ⟨τ, gen, new, reseeded, hg, ⟨s, hs⟩, hr⟩ := c124_generators demoRng (fun n => n) m hd q.ps.names q.ps.low q.ps.high q.ps.limits
    q.ps.nominal (by rw [hq1]; exact added_nodup (class_added d (lower := id) fun _ _ => rfl))
    (fun n h => by rw [hq1]; exact List.mem_append_left _ h) 0
  obtain ⟨h0, -, mods, h1, h2⟩ := c115_registered demoRng_ok m hd hD hpw (restingParts pw) ⟨rfl, rfl, rfl, rfl⟩
    ⟨fun _ _ _ => rfl, fun _ => rfl, fun _ _ _ h => h, fun _ _ _ h => h⟩ _ _ (by simp) (by simp) (fun n hn => by
      simp only [Nominal, entry, List.getD_eq_getElem?_getD, List.getElem?_replicate]
      split_ifs <;> norm_num) (fun g : Unit => (g, y)) (fun _ => hy) (fun _ g => g) id (fun _ _ => rfl) 1 gen (fun _ s => s) hq hg
    (fun _ s => hr s) (({ t := 0, k := 0, solver := (y, 0), conv := c0, supply := () }, ()), s) rfl hs rfl
  obtain ⟨gen₀, -, E, E', e1, e2, e3⟩ := c133_registered m hd (D := D) (restingParts pw) _ _ (by simp) (by simp) (fun g : Unit => (g, y))
    (fun _ g => g) id (fun _ _ => rfl) 1 gen (fun _ s => s) hq hg
  cases h1.symm.trans e2
  exact ⟨name, d, D, A, C, τ, space, _, _, ⟨{ t := 0, k := 0, solver := (y, 0), conv := c0, supply := () }, (), s⟩, hd,
    h0.trans (by rw [hmatch.motor]), E, mods, e1, e2, h2, e3 _⟩

/-- `c133_unchanged_partial` applies: with a constraint for the first current only, the sum of the currents changes nothing. -/
example : ∃ E E', build { twoCurrents with limited := ["i_a"] } = .ok E ∧ wbuild { withTheirSum with limited := ["i_a"] } = .ok E' ∧
    ∀ (x : World Unit Unit Unit Unit Unit) uses, List.Forall₂ (Agree (· <+: ·)) (outcomes E (Core.Env.init E x) uses)
      (outcomes E' (Core.Env.init E' ((x.sys, x.draws), x.ref)) uses) := by
  have hw : currentSum ["i_a", "i_e"] false (bare { twoCurrents with limited := ["i_a"] } [1, 1]).ps
      = .ok (currentSumAt [0, 1] 1 1 (bare twoCurrents [1, 1]).ps) := by
    have h1 : position (enumPos ["i_a", "i_e"]) "i_a" = .ok 0 := rfl
    have h2 : position (enumPos ["i_a", "i_e"]) "i_e" = .ok 1 := rfl
    simp [currentSum, bare, twoCurrents, h1, h2, bind, Except.bind, pure, Except.pure, reduce, Wrap.getE]
  have hw1 : ∃ w, setModules twoCurrents.lower twoCurrents.wse ⟨twoCurrents.names, twoCurrents.low, twoCurrents.high,
      twoCurrents.gen.referenced⟩ = .ok w := by
    simp [twoCurrents, setModules, Wse.init, setStateArray, weightArray, Except.map, finish, violationOf,
      stateDictToStateArray, lookup, defaultViolation]
    norm_num
  obtain ⟨E, hE⟩ := (c114_constructed { twoCurrents with limited := ["i_a"] } (fun _ _ => rfl) hw1).2
    ⟨Or.inr fun n hn => by simp only [List.mem_singleton] at hn; subst hn; simp [twoCurrents], by simp [twoCurrents], fun n hn => hn⟩
  obtain ⟨E', hE', h⟩ := c133_unchanged_partial _ [1, 1] (bare_consistent { twoCurrents with limited := ["i_a"] } [1, 1] rfl rfl rfl rfl)
    (.sum _ id [] _ _ _ .none hw) (by simp [twoCurrents]) (enlarges_const "i_a" [true, false] 1 0) (seedRef' := fun _ t => t) (fun _ _ _ h => h)
    (by simp [twoCurrents]) _ _ _ _ _ _ rfl ⟨Or.inl ⟨_, rfl⟩, Or.inr ⟨_, rfl⟩⟩ hE
  exact ⟨E, E', hE, hE', fun x uses => h x ((x.sys, x.draws), x.ref) rfl rfl uses⟩

end

end GEM.Props
