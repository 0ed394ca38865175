import Verif.Props.WrappedEnv
import Verif.Props.Registry

/-!
# C124: registered environments with physical system wrappers
-/

set_option linter.unusedSectionVars false

namespace GEM.Props

open GEM GEM.Assembly GEM.Wrap GEM.Registry GEM.Refs GEM.Sys GEM.Reward GEM.Utils GEM.Constr GEM.Core

noncomputable section

variable {Y U A S C P G τ σ B H : Type}

/-! ## The system of an environment without wrappers -/

theorem divLimits_length {s l v : List ℝ} (h : divLimits s l = .ok v) : v.length = l.length := by
  unfold divLimits at h
  split_ifs at h with hl
  cases h
  simp [hl]

theorem reset_length {p : Parts ℝ Y U A S C P} {rep : Y → List ℝ → List ℝ → Except Err (List ℝ)} {limits : List ℝ} {st : St ℝ S C P}
    {y : Y} {v : List ℝ} (h : (reset p rep limits st y).2 = .ok v) : v.length = limits.length := by
  unfold reset at h
  obtain ⟨s, -, h⟩ := bind_ok.1 h
  exact divLimits_length h

theorem simulate_length {p : Parts ℝ Y U A S C P} {f : Frame ℝ Y U A} {tau : ℝ} {limits : List ℝ} {st : St ℝ S C P} {a : A} {v : List ℝ}
    (h : (simulate p f tau limits st a).2 = .ok v) : v.length = limits.length := by
  unfold simulate at h
  dsimp only at h
  split at h
  · simp at h
  · unfold Call.bind at h
    split at h
    · dsimp only at h
      split at h
      · obtain ⟨s, -, h⟩ := bind_ok.1 h
        exact divLimits_length h
      · simp at h
    · simp at h

theorem bare_consistent (c : Setup Y U A S C P G τ) (nominal : List ℝ) (h1 : c.limits.length = c.names.length)
    (h2 : nominal.length = c.names.length) (h3 : c.low.length = c.names.length) (h4 : c.high.length = c.names.length) :
    Consistent (bare c nominal).ps where
  limits := h1
  nominal := h2
  low := h3
  high := h4
  pos k i h := enumPos_some h
  named k h := enumPos_mem h
  reset st v h := (reset_length h).trans h1
  simulate st a v h := (simulate_length h).trans h1

theorem bare_answers {c : Setup Y U A S C P G τ} {conv : C → Prop} {shape : Y → Prop} {space : A → Prop}
    (ha : AcceptsAll c.p c.f c.rep c.tau c.limits c.names.length conv shape space) (hne : ∃ a, space a)
    (hstart : ∀ g, shape (c.start g).2) (nominal : List ℝ) :
    Answers (bare c nominal) space (fun st => conv st.1.conv) (fun st => Running c conv shape space st.1) where
  reset st hst := by
    obtain ⟨a, hs⟩ := hne
    obtain ⟨⟨s, h1, h2⟩, -⟩ := ha st.1 (c.start st.2).2 (fun _ => a) hst (hstart _) fun _ => hs
    exact ⟨((reset c.p c.rep c.limits st.1 (c.start st.2).2).1, (c.start st.2).1), s, by simp only [bare, h1], h2,
      running_reset ha hst (hstart _) a hs, rfl⟩
  simulate st a hst hs := by
    obtain ⟨st', s, h1, h2, h3⟩ := running_step ha hst a hs
    exact ⟨(st', st.2), s, by simp only [bare, h1], h2, h3, simulate_k h1⟩
  again st hst := running_conv ha hst
  seed n st hst := hst

/-! ## Default reference generators for more states -/

/-- State vectors whose space contains zero. -/
structure Centred (names : List String) (low high : List ℝ) : Prop where
  distinct : names.Nodup
  lowLen : low.length = names.length
  highLen : high.length = names.length
  zero : ∀ i < names.length, entry low i ≤ 0 ∧ 0 ≤ entry high i

/-- `WienerOf` for a system with these states and bounds. -/
structure WienerIn (R : Rng H) (names : List String) (low high limits nominal : List ℝ) (g : WienerArg) (c : SubCfg H ℝ) : Prop where
  name : c.name = g.state
  mask : Refs.mask names g.state = .ok c.mask
  margin : setMargin (entry nominal (names.idxOf g.state)) (entry limits (names.idxOf g.state)) (entry low (names.idxOf g.state))
    (entry high (names.idxOf g.state)) (marginArg g.margin) = .ok (c.low, c.high)
  length : c.drawLen = lenDraw R (.pair 500 2000)
  make : c.make = wienerMake R (.pair g.sigma.1 g.sigma.2)
  initial : c.initial = some (wienerInitial R c.low c.high)

/-- `Generates` for a system with these states and bounds. -/
inductive GeneratesIn (R : Rng H) (names : List String) (low high limits nominal : List ℝ) :
    RefArg → (τ : Type) → RefGen τ ℝ → (τ → Prop) → (τ → τ → Prop) → Prop
  | one (g : WienerArg) (c : SubCfg H ℝ) (h : WienerIn R names low high limits nominal g c) :
      GeneratesIn R names low high limits nominal (.one g) (SubSt H ℝ) (subGen c) (Unused c) Reseeded
  | multiple (gs : List WienerArg) (cs : List (SubCfg H ℝ)) (h : List.Forall₂ (WienerIn R names low high limits nominal) gs cs)
      (M : RefGen (List (SubSt H ℝ)) ℝ) (hM : multiGen names.length (cs.map subGen) = .ok M) :
      GeneratesIn R names low high limits nominal (.multiple gs) (List (SubSt H ℝ)) M (List.Forall₂ Unused cs) (List.Forall₂ Reseeded)

/-- Without further states these are the generators of `Generates`. -/
theorem generatesIn_bare (R : Rng H) (t : MotorType) (limits nominal : List ℝ) (arg : RefArg) (gen : RefGen τ ℝ) (new : τ → Prop)
    (reseeded : τ → τ → Prop) (h : Generates R t limits nominal arg τ gen new reseeded) :
    GeneratesIn R (stateNames t) (low t) (high t) limits nominal arg τ gen new reseeded := by
  have hw : ∀ g c, WienerOf (H := H) R t limits nominal g c → WienerIn R (stateNames t) (low t) (high t) limits nominal g c :=
    fun g c h => ⟨h.name, h.mask, h.margin, h.length, h.make, h.initial⟩
  cases h with
  | one g c h => exact .one g c (hw g c h)
  | multiple gs cs h M hM => exact .multiple gs cs (h.imp hw) M hM

theorem wienerIn_bounds {R : Rng H} {names : List String} {low high limits nominal : List ℝ} (hc : Centred names low high)
    {g : WienerArg} {c : SubCfg H ℝ} (h : WienerIn R names low high limits nominal g c)
    (hn : Nominal (entry limits (names.idxOf g.state)) (entry nominal (names.idxOf g.state))) (hm : MarginOk g.margin) :
    entry low (names.idxOf g.state) ≤ c.low ∧ c.low ≤ c.high ∧ c.high ≤ entry high (names.idxOf g.state) := by
  obtain ⟨hs, -⟩ := mask_ok h.mask
  have hi := List.idxOf_lt_length_of_mem hs
  obtain ⟨l1, l2⟩ := hc.zero _ hi
  have e := h.margin
  generalize entry low (names.idxOf g.state) = l at *
  generalize entry high (names.idxOf g.state) = u at *
  generalize entry nominal (names.idxOf g.state) = nom at *
  generalize entry limits (names.idxOf g.state) = lim at *
  cases hg : g.margin with
  | none =>
    simp only [hg, marginArg, setMargin, Except.ok.injEq, Prod.mk.injEq] at e
    have q : 0 ≤ nom / lim ∧ nom / lim ≤ 1 := by
      rcases hn with rfl | ⟨n1, n2⟩
      · exact ⟨by by_cases h0 : nom = 0 <;> simp [h0], div_self_le_one nom⟩
      · exact ⟨div_nonneg n1.le (n1.le.trans n2), div_le_one_of_le₀ n2 (n1.le.trans n2)⟩
    obtain ⟨q0, q1⟩ := q
    rw [← e.1, ← e.2]
    exact ⟨by nlinarith, by nlinarith, by nlinarith⟩
  | some ab =>
    obtain ⟨a, b⟩ := ab
    simp only [hg, marginArg, setMargin, Except.ok.injEq, Prod.mk.injEq] at e
    rw [hg] at hm
    obtain ⟨a0, a1, b0, b1⟩ := hm
    have a0 : (0 : ℝ) ≤ a := by exact_mod_cast a0
    have a1 : (a : ℝ) ≤ 1 := by exact_mod_cast a1
    have b0 : (0 : ℝ) ≤ b := by exact_mod_cast b0
    have b1 : (b : ℝ) ≤ 1 := by exact_mod_cast b1
    rw [← e.1, ← e.2]
    exact ⟨by nlinarith, by nlinarith, by nlinarith⟩

theorem wienerIn_provides {R : Rng H} (hR : RngOk R) {names : List String} {low high limits nominal : List ℝ}
    (hc : Centred names low high) {g : WienerArg} {c : SubCfg H ℝ} (h : WienerIn R names low high limits nominal g c)
    (hn : Nominal (entry limits (names.idxOf g.state)) (entry nominal (names.idxOf g.state))) (hm : MarginOk g.margin) :
    ∃ fresh ready, Provides (subGen c) low high fresh ready ∧ (∀ s, Unused c s → fresh s) ∧
      ∀ s s', fresh s → Reseeded s s' → fresh s' := by
  obtain ⟨hs, hmask⟩ := mask_ok h.mask
  obtain ⟨b1, b2, b3⟩ := wienerIn_bounds hc h hn hm
  obtain ⟨fresh, ready, h1, h2, h3⟩ := c114_references hR (.wiener (.pair g.sigma.1 g.sigma.2)) ⟨_, _, rfl⟩ (.pair 500 2000) trivial
    (by norm_num [Range.least]) c h.make h.length low high (by rw [hc.lowLen, hc.highLen]) (by rw [hmask, hc.lowLen]; simp)
    (by rw [hmask]; simpa using hs) b2 (by
      intro i hi
      rw [hc.lowLen] at hi
      split_ifs with hm
      · rw [hmask] at hm
        rw [mask_at hc.distinct hm]
        exact ⟨b1, b3⟩
      · exact hc.zero i hi)
  refine ⟨fresh, ready, h1, fun s hs => h2 s hs.1 hs.2, fun s s' hf hr => h3 s s' hf ?_ ?_⟩
  · rw [hr]
  · rw [hr]

theorem generatesIn_provides {R : Rng H} (hR : RngOk R) {names : List String} {low high limits nominal : List ℝ}
    (hc : Centred names low high) {arg : RefArg} {gen : RefGen τ ℝ} {new : τ → Prop} {reseeded : τ → τ → Prop}
    (h : GeneratesIn R names low high limits nominal arg τ gen new reseeded)
    (hn : ∀ g ∈ arg.list, Nominal (entry limits (names.idxOf g.state)) (entry nominal (names.idxOf g.state)))
    (hm : ∀ g ∈ arg.list, MarginOk g.margin) :
    gen.referenced.length = names.length ∧
    ∃ fresh ready, Provides gen low high fresh ready ∧ (∀ s, new s → fresh s) ∧ ∀ s s', fresh s → reseeded s s' → fresh s' := by
  cases h with
  | one g c h =>
    refine ⟨?_, wienerIn_provides hR hc h (hn g (by simp [RefArg.list])) (hm g (by simp [RefArg.list]))⟩
    show c.mask.length = _
    rw [(mask_ok h.mask).2, List.length_map]
  | multiple gs cs h M hM =>
    have hon : ∀ g ∈ cs.map subGen, Honest low.length g := by
      intro g hg
      obtain ⟨c, hc', rfl⟩ := List.mem_map.1 hg
      obtain ⟨i, hi, rfl⟩ := List.mem_iff_getElem.1 hc'
      have := (List.forall₂_iff_get.1 h).2 i (by rw [h.length_eq]; exact hi) hi
      have hl : (cs[i]).mask.length = low.length := by
        have := (mask_ok this.mask).2
        simp only [List.get_eq_getElem] at this
        rw [this, List.length_map, hc.lowLen]
      rw [← hl]
      exact c43_honest.1 _
    have hP := multiple_provides (FreshAny low high) (ReadyAny low high) low high
      (fun g => provides_any g _ _) (by rw [hc.lowLen, hc.highLen]) (by rw [hc.lowLen]; exact hM) hon (fun i hi => by
        rw [hc.lowLen] at hi
        exact hc.zero i hi)
    refine ⟨?_, _, _, hP, fun ss hss => ?_, fun ss ss' hf hr => ?_⟩
    · obtain ⟨-, -, rfl⟩ := multiGen_ok hM
      simp
    · rw [List.forall₂_map_left_iff]
      rw [List.forall₂_iff_get] at hss h ⊢
      refine ⟨hss.1, fun i h1 h2 => ?_⟩
      have hw := h.2 i (by rw [h.1]; exact h1) h1
      have hg : gs.get ⟨i, by rw [h.1]; exact h1⟩ ∈ (RefArg.multiple gs).list := List.get_mem _ _
      obtain ⟨fresh, ready, p1, p2, p3⟩ := wienerIn_provides hR hc hw (hn _ hg) (hm _ hg)
      exact ⟨fresh, ready, p1, p3, p2 _ (hss.2 i h1 h2)⟩
    · rw [List.forall₂_iff_get] at hf hr ⊢
      refine ⟨hf.1.trans hr.1, fun i h1 h2 => ?_⟩
      obtain ⟨fresh, ready, p1, p2, p3⟩ := hf.2 i h1 (by rw [hr.1]; exact h2)
      exact ⟨fresh, ready, p1, p2, p2 _ _ p3 (hr.2 i (by rw [hr.1]; exact h2) h2)⟩

/-! ## The environments -/

/-- What wrappers append fits: new names, none twice, in lower case, and bounds around zero. -/
structure Added (t : MotorType) (lower : String → String) (ext : List (String × ℝ × ℝ)) : Prop where
  distinct : (ext.map (·.1)).Nodup
  new : ∀ e ∈ ext, e.1 ∉ stateNames t
  lower : ∀ e ∈ ext, lower e.1 = e.1
  bounds : ∀ e ∈ ext, e.2.1 < 0 ∧ 0 < e.2.2

section added

variable {t : MotorType} {lower : String → String} {ext : List (String × ℝ × ℝ)}

theorem added_nodup (h : Added t lower ext) : (stateNames t ++ ext.map (·.1)).Nodup := by
  refine List.nodup_append.2 ⟨stateNames_nodup t, h.distinct, ?_⟩
  rintro a ha b hb rfl
  obtain ⟨e, he, rfl⟩ := List.mem_map.1 hb
  exact h.new e he ha

theorem entry_append_left (a b : List ℝ) {i : ℕ} (h : i < a.length) : entry (a ++ b) i = entry a i := by
  simp [entry, List.getD_eq_getElem?_getD, List.getElem?_append_left h]

theorem entry_append_right (a b : List ℝ) {i : ℕ} (h : a.length ≤ i) : entry (a ++ b) i = entry b (i - a.length) := by
  simp [entry, List.getD_eq_getElem?_getD, List.getElem?_append_right h]

theorem added_bounds (h : Added t lower ext) {i : ℕ} (hi : i < (stateNames t ++ ext.map (·.1)).length) :
    (entry (low t ++ ext.map (·.2.1)) i ≤ 0 ∧ 0 < entry (high t ++ ext.map (·.2.2)) i) := by
  have hl := (low_spec t).1
  have hh : (high t).length = (stateNames t).length := by simp [high]
  by_cases h1 : i < (stateNames t).length
  · rw [entry_append_left _ _ (by rw [hl]; exact h1), entry_append_left _ _ (by rw [hh]; exact h1), entry_high t h1]
    exact ⟨((low_spec t).2 i h1).2, one_pos⟩
  · rw [entry_append_right _ _ (by omega), entry_append_right _ _ (by omega), hl, hh]
    have h2 : i - (stateNames t).length < ext.length := by
      simp only [List.length_append, List.length_map] at hi
      omega
    have := h.bounds _ (List.getElem_mem h2)
    simp only [entry, List.getD_eq_getElem?_getD, List.getElem?_map, List.getElem?_eq_getElem h2, Option.map_some, Option.getD_some]
    exact ⟨this.1.le, this.2⟩

theorem added_centred (h : Added t lower ext) :
    Centred (stateNames t ++ ext.map (·.1)) (low t ++ ext.map (·.2.1)) (high t ++ ext.map (·.2.2)) :=
  ⟨added_nodup h, by simp [(low_spec t).1], by simp [high], fun _ hi => ⟨(added_bounds h hi).1, (added_bounds h hi).2.le⟩⟩

theorem added_lower (h : Added t lower ext) (hlower : ∀ n ∈ stateNames t, lower n = n) :
    ∀ n ∈ stateNames t ++ ext.map (·.1), lower n = n := by
  intro n hn
  rcases List.mem_append.1 hn with h1 | h1
  · exact hlower n h1
  · obtain ⟨e, he, rfl⟩ := List.mem_map.1 h1
    exact h.lower e he

end added

theorem added_modules {d : Defaults} (hf : Fitting d) (hsum : (d.weights.map Prod.snd).sum = 1) (p : Parts ℝ Y U A S C P)
    (f : Frame ℝ Y U A) (rep : Y → List ℝ → List ℝ → Except Err (List ℝ)) (limits : List ℝ) (start : G → G × Y)
    (seedSystem : ℕ → G → G) (gen : RefGen τ ℝ) (seedRef : ℕ → τ → τ) (lower : String → String)
    (hlower : ∀ n ∈ stateNames d.motor, lower n = n) (nCb : ℕ) {ext : List (String × ℝ × ℝ)} (hx : Added d.motor lower ext)
    (q : Plant σ B) (hn : q.ps.names = stateNames d.motor ++ ext.map (·.1)) :
    ∃ w m idx, modules ((Registry.setup d p f rep limits start seedSystem gen seedRef lower nCb).around q).announced = .ok (w, m, idx) ∧
      w.range = some (-1, 0) ∧ w.violation = some (.fin (-10)) := by
  set c := ((Registry.setup d p f rep limits start seedSystem gen seedRef lower nCb).around q).announced with hc
  set names := stateNames d.motor ++ ext.map (·.1) with hnames
  have hnd : names.Nodup := added_nodup hx
  have hlow' : ∀ n ∈ names, lower n = n := added_lower hx hlower
  have hsub : ∀ n ∈ stateNames d.motor, n ∈ names := fun n h => List.mem_append_left _ h
  have hk : ∀ k ∈ d.weights.map Prod.fst, k ∈ names := fun k h => hsub k (hf.known k (by simp only [List.mem_append]; tauto))
  have hlow : ((d.weights.map fun w => (w.1, (w.2 : ℝ))).map fun q => (lower q.1, q.2)) = d.weights.map fun w => (w.1, (w.2 : ℝ)) := by
    rw [List.map_map]
    refine List.map_congr_left fun w hw => ?_
    simp only [Function.comp]
    rw [hlow' w.1 (hk w.1 (List.mem_map_of_mem hw))]
  have harr : setStateArray lower names (.dict (d.weights.map fun w => (w.1, (w.2 : ℝ))))
      = .ok (names.map fun n => (lookup (d.weights.map fun w => (w.1, (w.2 : ℝ))) n).getD 0) := by
    simp only [setStateArray, stateDictToStateArray]
    rw [hlow, if_pos]
    · congr 1
      rw [List.zipWith_map_right, List.zipWith_self]
      refine List.map_congr_left fun n _ => ?_
      cases lookup (d.weights.map fun w => (w.1, (w.2 : ℝ))) n <;> rfl
    · intro q hq
      obtain ⟨w, hw, rfl⟩ := List.mem_map.1 hq
      exact hk w.1 (List.mem_map_of_mem hw)
  have htot : (names.map fun n => (lookup (d.weights.map fun w => (w.1, (w.2 : ℝ))) n).getD 0).sum = 1 := by
    rw [dict_sum _ hnd _ (by rw [List.map_map]; exact hf.distinct) (by rw [List.map_map]; exact hk), List.map_map]
    have : ((d.weights.map Prod.snd).map fun q : ℚ => (q : ℝ)).sum = (((d.weights.map Prod.snd).sum : ℚ) : ℝ) := by
      generalize d.weights.map Prod.snd = l
      induction l with
      | nil => simp
      | cons a l ih => rw [List.map_cons, List.sum_cons, List.sum_cons, ih, Rat.cast_add]
    rw [List.map_map] at this
    rw [show ((Prod.snd ∘ fun w : String × ℚ => (w.1, (w.2 : ℝ))) = ((fun q : ℚ => (q : ℝ)) ∘ Prod.snd)) from rfl, this, hsum]
    norm_num
  have hw : ∃ w, setModules c.lower c.wse ⟨c.names, c.low, c.high, c.gen.referenced⟩ = .ok w ∧ w.range = some (-1, 0) ∧
      w.violation = some (.fin (-10)) := by
    have e1 : setStateArray lower names (Input.scalar (1 : ℝ)) = .ok (names.map fun _ => 1) := rfl
    simp only [hc, WSetup.announced, Setup.around, hn, Registry.setup, setModules, Wse.init, e1, weightArray, harr, Except.map, finish,
      htot, violationOf, defaultViolation, Bias.value, Option.map_none]
    norm_num
  have hcn : c.names = names := hn
  obtain ⟨w, h1, h2, h3⟩ := hw
  obtain ⟨x, hx⟩ := (c114_constructed c (by rw [hcn]; exact hlow') ⟨w, h1⟩).2 ⟨Or.inr fun k hk => by
      have : k ∈ names := hsub k (hf.known k (by simp only [List.mem_append]; exact Or.inl (Or.inr hk)))
      rw [hcn]
      show lower k ∈ names
      rwa [hlow' k this], fun g hg n hn => by
        rw [hcn]
        refine hsub n (hf.known n ?_)
        simp only [List.mem_append]
        exact Or.inr (List.mem_flatten.2 ⟨g, hg, hn⟩), fun n hn => hn⟩
  unfold build at hx
  cases hm : modules c with
  | error e => simp [hm, Except.map] at hx
  | ok y =>
    obtain ⟨w', m, idx⟩ := y
    obtain ⟨-, -, -, h4, -⟩ := modules_ok hm
    rw [h1, Except.ok.injEq] at h4
    subst h4
    exact ⟨w, m, idx, rfl, h2, h3⟩

theorem prefix_entry {a b : List ℝ} (h : a <+: b) {i : ℕ} (hi : i < a.length) : entry b i = entry a i := by
  obtain ⟨t, rfl⟩ := h
  exact entry_append_left _ _ hi

/-- C124 (registered environments): every registered environment with its default arguments and any physical system wrappers can be
constructed and always answers.

Motors, converters, supplies, solvers and initial states as in `c115_environment`; `q` is the default system inside any number of wrappers
(`Wrapping`) that append `ext` to the state vector; the default reference generator is set up with the wrapped system. -/
theorem c124_registered {R : Rng H} (hR : RngOk R) (m : Motor) {name : String} {d : Defaults} (hd : make m.envId = some (name, d))
    {D : Drive} (hD : Drives d.motor D) {pw : Power A C} {conv : C} {space : A → Prop}
    (hpw : Powered d.tau d.action d.converter A C pw conv space) (p : Parts ℝ D.Y D.U A S C P) (hu : Uses p pw) (hs : Shaped p D.shape)
    (limits nominal : List ℝ) (hl : limits.length = (stateNames d.motor).length) (hl' : nominal.length = (stateNames d.motor).length)
    (hn : NominalOk d.motor limits nominal (d.references.list.map (·.state)))
    (start : G → G × D.Y) (hstart : ∀ g, D.shape (start g).2) (seedSystem : ℕ → G → G) (lower : String → String)
    (hlower : ∀ n ∈ stateNames d.motor, lower n = n) (nCb : ℕ) (gen : RefGen τ ℝ) (seedRef : ℕ → τ → τ)
    {q : Plant σ B} {space' : B → Prop} {inner : σ → St ℝ S C P × G} {ext : List (String × ℝ × ℝ)} {noisy : Bool}
    (hq : Wrapping (bare (Registry.setup d p (D.frame A) D.rep limits start seedSystem gen seedRef lower nCb) nominal) space q space'
      inner ext noisy) (hext : Added d.motor lower ext) {new : τ → Prop} {reseeded : τ → τ → Prop}
    (hg : GeneratesIn R q.ps.names q.ps.low q.ps.high q.ps.limits q.ps.nominal d.references τ gen new reseeded)
    (hseed : ∀ n s, reseeded s (seedRef n s)) (x : σ × τ) (hx : (inner x.1).1.conv = conv) (hf : new x.2) (hk : (inner x.1).1.k = 0) :
    q.ps.names = stateNames d.motor ++ ext.map (·.1) ∧
    (((Registry.setup d p (D.frame A) D.rep limits start seedSystem gen seedRef lower nCb).around q).announced.limited = d.limited ∧
      ((Registry.setup d p (D.frame A) D.rep limits start seedSystem gen seedRef lower nCb).around q).announced.squares = d.squares) ∧
    ∃ mods, wbuild ((Registry.setup d p (D.frame A) D.rep limits start seedSystem gen seedRef lower nCb).around q) = .ok mods ∧
      ∀ ops : List (Core.Op (σ × τ) B), (∀ op ∈ ops, Proper space' op) →
        Conforms ((Registry.setup d p (D.frame A) D.rep limits start seedSystem gen seedRef lower nCb).around q).announced (-1) 0 (-10) true
          (Core.run mods (Core.Env.init mods x) ops).2 := by
  obtain ⟨name', d', hd', hmatch, hfit⟩ := entry_of m
  rw [hd, Option.some.injEq, Prod.mk.injEq] at hd'
  obtain ⟨rfl, rfl⟩ := hd'
  have hpw' := hpw
  rw [hfit.converter] at hpw'
  obtain ⟨idle, ha, hi⟩ := drives_accept hD hpw' p hu hs d.tau limits hl
  set c := Registry.setup d p (D.frame A) D.rep limits start seedSystem gen seedRef lower nCb with hc
  have hl1 := (low_spec d.motor).1
  obtain ⟨c1, c2, c3, running, c4⟩ := c124_systems
    (bare_consistent c nominal hl hl' hl1 (by simp [hc, Registry.setup, high]))
    (bare_answers (c := c) (nominal := nominal) ha (powered_space hpw) hstart) hq
  have hnames : q.ps.names = stateNames d.motor ++ ext.map (·.1) := c2.names
  have hlo : q.ps.low = low d.motor ++ ext.map (·.2.1) := c2.low
  have hhi : q.ps.high = high d.motor ++ ext.map (·.2.2) := c2.high
  have hcen : Centred q.ps.names q.ps.low q.ps.high := by
    rw [hnames, hlo, hhi]
    exact added_centred hext
  have hidx : ∀ n ∈ stateNames d.motor, q.ps.names.idxOf n = (stateNames d.motor).idxOf n := fun n h => by
    rw [hnames, List.idxOf_append_of_mem h]
  have hrefs : ∀ g ∈ d.references.list, g.state ∈ stateNames d.motor := fun g hg => hfit.known _ (by
    simp only [List.mem_append]
    exact Or.inl (Or.inl (Or.inr (List.mem_map_of_mem hg))))
  obtain ⟨href, fresh, ready, g1, g2, g3⟩ := generatesIn_provides hR hcen hg (fun g hg => by
    have h1 := hrefs g hg
    have h2 := List.idxOf_lt_length_of_mem h1
    rw [hidx _ h1, prefix_entry c2.limits (by rw [← hl] at h2; exact h2), prefix_entry c2.nominal (by rw [← hl'] at h2; exact h2)]
    exact hn _ (List.mem_map_of_mem hg)) hfit.margins
  obtain ⟨w, mo, idx, e1, e2, e3⟩ := added_modules hfit hmatch.total p (D.frame A) D.rep limits start seedSystem gen seedRef lower hlower nCb
    hext q hnames
  refine ⟨hnames, ⟨rfl, rfl⟩, wcomps (c.around q) w mo idx, by simp only [wbuild, hc, e1, Except.map], fun ops hops => ?_⟩
  have hcoh : Coherent (c.around q).announced := by
    refine ⟨⟨hcen.lowLen, hcen.highLen, href, fun i hi => ?_⟩, hcen.distinct, ?_, fun g hg n hn => ?_,
      some (.dict (d.weights.map fun w => (w.1, (w.2 : ℝ)))), false, none, 9 / 10, .scalar 1, .num 0, rfl, ?_, ?_, by norm_num, by simp⟩
    · have hi : i < q.ps.names.length := hi
      show entry q.ps.low i < entry q.ps.high i
      rw [hlo, hhi]
      rw [hnames] at hi
      have := added_bounds hext hi
      linarith [this.1, this.2]
    · show ∀ n ∈ q.ps.names, lower n = n
      rw [hnames]
      exact added_lower hext hlower
    · have h1 : n ∈ stateNames d.motor := hfit.known n (by
        simp only [List.mem_append]
        exact Or.inr (List.mem_flatten.2 ⟨g, hg, hn⟩))
      have h2 := List.idxOf_lt_length_of_mem h1
      show entry q.ps.high (q.ps.names.idxOf n) = 1
      rw [hidx n h1, hhi, entry_append_left _ _ (by simpa [high] using h2)]
      exact entry_high _ h2
    · intro a ha
      simp only [Option.mem_def, Option.some.injEq] at ha
      subst ha
      intro q hq
      obtain ⟨w, hw, rfl⟩ := List.mem_map.1 hq
      have := hmatch.positive w hw
      show (0 : ℝ) ≤ w.2
      exact_mod_cast this.le
    · simp [Nonneg]
  obtain ⟨lo, hi', v, f1, f2, f3, -⟩ := c124_environment_partial hcoh e1 c4 g1 (fun n t ht => g3 t _ ht (hseed n t)) x
    (by show idle (inner x.1).1.conv; rw [hx]; exact hi) (g2 _ hf) ((c3 x.1).trans hk) ops hops
  rw [e2] at f1
  rw [e3] at f2
  simp only [Option.some.injEq, Prod.mk.injEq, Fl.fin.injEq] at f1 f2
  obtain ⟨rfl, rfl⟩ := f1
  subst f2
  exact f3

/-! ## Removed angles -/

theorem shown_prefix {names : List String} (hn : names.Nodup) {s : List ℝ} (h : names.length ≤ s.length) :
    (names.map fun n => entry s (names.idxOf n)) = s.take names.length := by
  refine List.ext_getElem (by simp [h]) fun i h1 h2 => ?_
  simp only [List.length_map] at h1
  simp [entry, List.getD_eq_getElem?_getD, hn.idxOf_getElem i h1, List.getElem?_eq_getElem (Nat.lt_of_lt_of_le h1 h)]

theorem wreset_shows {c : WSetup σ A τ} {w : Wse String} {m : Monitor (List ℝ) ℝ} {idx : List ℕ}
    {env env' : Env (σ × τ) A (List ℝ) (List ℝ) (List ℝ) ℝ} {n : ℕ} {o : List ℝ × List ℝ}
    (h : env.reset (wcomps c w m idx) n = (env', .ok o)) :
    ∃ s, (c.plant.ps.reset (c.plant.seed n env.comp.1)).2 = .ok s ∧ o.1 = take s idx := by
  unfold Env.reset at h
  simp only [Env.call, wfire_comp, Call.bind] at h
  cases hs : ((wcomps c w m idx).psReset ((wcomps c w m idx).seed n env.comp)).2 with
  | error e => simp [hs] at h
  | ok s =>
    simp only [hs] at h
    split at h
    · rename_i ro hro
      rw [Prod.mk.injEq, Except.ok.injEq] at h
      exact ⟨s, hs, by rw [← h.2]; rfl⟩
    · simp at h

/-- C124 (removed angles): with `CosSinProcessor(remove_angle=True)` the states of the environment are those of the inner system without the
angle, the cosine and the sine; but the observation of every reset still has the angle at its old place, everything behind it one place
too far back, the cosine in place of the sine, and no sine. -/
theorem c124_remove_violated {angle : String} {p : Plant σ A} {v : PSys σ A} (hv : cosSin angle true p.ps = .ok v) (hc : Consistent p.ps)
    {c : WSetup σ A τ} (hp : c.plant = p.same v) (hf : c.filter = none) (hn : v.names.Nodup) {w : Wse String} {m : Monitor (List ℝ) ℝ}
    {idx : List ℕ} (hm : modules c.announced = .ok (w, m, idx)) {env env' : Env (σ × τ) A (List ℝ) (List ℝ) (List ℝ) ℝ} {n : ℕ}
    {o : List ℝ × List ℝ} (h : env.reset (wcomps c w m idx) n = (env', .ok o)) :
    ∃ s i x, (p.ps.reset (p.seed n env.comp.1)).2 = .ok s ∧ p.ps.names[i]? = some angle ∧ s[i]? = some x ∧
      c.announced.names = p.ps.names.eraseIdx i ++ ["cos(" ++ angle ++ ")", "sin(" ++ angle ++ ")"] ∧
      o.1 = s ++ [Real.cos (x * Real.pi)] := by
  obtain ⟨t, ht, ho⟩ := wreset_shows h
  obtain ⟨i, h1, rfl⟩ := map_ok'.1 hv
  have hi := hc.lt (position_ok.1 h1)
  have ht : ((cosSinAt i angle true p.ps).reset (p.seed n env.comp.1)).2 = .ok t := by rw [hp] at ht; exact ht
  obtain ⟨s, hs, ht⟩ := post_ok.1 ht
  obtain ⟨x, hx, rfl⟩ := cosSinOf_ok.1 ht
  have hl := hc.reset _ _ hs
  have hnm : c.announced.names = (cosSinAt i angle true p.ps).names := congrArg (fun q : Plant σ A => q.ps.names) hp
  have hlen : (cosSinAt i angle true p.ps).names.length = s.length + 1 := by
    simp only [cosSinAt, del, if_true, List.length_append, List.length_eraseIdx_of_lt hi, hl, List.length_cons, List.length_nil]
    omega
  refine ⟨s, i, x, hs, hc.pos _ _ (position_ok.1 h1), hx, by rw [hnm]; simp [cosSinAt, del], ?_⟩
  rw [ho, observation_of hm, shown, show c.announced.filter = none from hf]
  dsimp only
  rw [hnm, shown_prefix hn (by simp [hlen]), hlen, List.take_append]
  simp

/-! ## Such environments exist -/

/-- `wienerCfg` for a system with these states and bounds -/
def wienerCfgIn (R : Rng H) (spawn : ℕ → H) (names : List String) (low high limits nominal : List ℝ) (g : WienerArg) : SubCfg H ℝ :=
  let i := names.idxOf g.state
  let lim := match g.margin with
    | none => (entry nominal i / entry limits i * entry low i, entry nominal i / entry limits i * entry high i)
    | some (a, b) => (a * entry low i, b * entry high i)
  { name := g.state
    mask := names.map fun n => decide (n = g.state)
    low := lim.1
    high := lim.2
    drawLen := lenDraw R (.pair 500 2000)
    make := wienerMake R (.pair g.sigma.1 g.sigma.2)
    spawn := spawn
    initial := some (wienerInitial R lim.1 lim.2) }

theorem wienerCfgIn_of (R : Rng H) (spawn : ℕ → H) (names : List String) (low high limits nominal : List ℝ) (g : WienerArg)
    (hg : g.state ∈ names) : WienerIn R names low high limits nominal g (wienerCfgIn R spawn names low high limits nominal g) := by
  refine ⟨rfl, by simp [Refs.mask, hg, wienerCfgIn], ?_, rfl, rfl, rfl⟩
  cases h : g.margin <;> simp [wienerCfgIn, h, marginArg, setMargin]

/-- C124 (generators): the default reference generators are accepted for every system with the states of the motor and any others; in
particular, those of several states do not overlap. -/
theorem c124_generators (R : Rng H) (spawn : ℕ → H) (m : Motor) {name : String} {d : Defaults} (hd : make m.envId = some (name, d))
    (names : List String) (low high limits nominal : List ℝ) (hnd : names.Nodup) (hsub : ∀ n ∈ stateNames d.motor, n ∈ names) (h0 : H) :
    ∃ (τ : Type) (gen : RefGen τ ℝ) (new : τ → Prop) (reseeded : τ → τ → Prop),
      GeneratesIn R names low high limits nominal d.references τ gen new reseeded ∧ (∃ s, new s) ∧ ∀ s, reseeded s s := by
  obtain ⟨name', d', hd', hmatch, hfit⟩ := entry_of m
  rw [hd, Option.some.injEq, Prod.mk.injEq] at hd'
  obtain ⟨rfl, rfl⟩ := hd'
  have hne : d.references.list ≠ [] := by
    intro e
    have := hmatch.references
    rw [e] at this
    obtain ⟨t, c, a⟩ := m
    cases t <;> cases c <;> simp [controlled] at this
  have hk : ∀ g ∈ d.references.list, g.state ∈ names := fun g hg => hsub _ (hfit.known _ (by
    simp only [List.mem_append]
    exact Or.inl (Or.inl (Or.inr (List.mem_map_of_mem hg)))))
  have hdist := hfit.states
  cases hr : d.references with
  | one g =>
    rw [hr] at hk
    refine ⟨_, _, _, _, .one g _ (wienerCfgIn_of R spawn names low high limits nominal g (hk g (by simp [RefArg.list]))), ?_, fun s => rfl⟩
    exact ⟨subInit ((wienerCfgIn R spawn names low high limits nominal g).low, (wienerCfgIn R spawn names low high limits nominal g).high)
      500 h0, rfl, rfl⟩
  | multiple gs =>
    rw [hr] at hk hdist hne
    have hk : ∀ g ∈ gs, g.state ∈ names := hk
    have hdist : (gs.map (·.state)).Nodup := hdist
    obtain ⟨M, hM⟩ := (c43_overlap names.length ((gs.map (wienerCfgIn R spawn names low high limits nominal)).map subGen)).2
      ⟨by simpa [RefArg.list] using hne, fun i j j' g g' hi h1 h2 h3 h4 => by
        simp only [List.getElem?_map, Option.map_eq_some_iff] at h1 h2
        obtain ⟨c, ⟨a, ha, rfl⟩, rfl⟩ := h1
        obtain ⟨c', ⟨a', ha', rfl⟩, rfl⟩ := h2
        have e1 := mask_at hnd h3
        have e2 := mask_at hnd h4
        have e : a.state = a'.state := by
          rw [e1] at e2
          exact (List.idxOf_inj (hk a (List.mem_of_getElem? ha))).1 e2
        have q1 : (gs.map (·.state))[j]? = some a.state := by simp [ha]
        have q2 : (gs.map (·.state))[j']? = some a.state := by simp [ha', e]
        obtain ⟨l1, q1⟩ := List.getElem?_eq_some_iff.1 q1
        obtain ⟨l2, q2⟩ := List.getElem?_eq_some_iff.1 q2
        exact (List.Nodup.getElem_inj_iff hdist).1 (q1.trans q2.symm)⟩
    have hw : List.Forall₂ (WienerIn R names low high limits nominal) gs (gs.map (wienerCfgIn R spawn names low high limits nominal)) := by
      rw [List.forall₂_map_right_iff, List.forall₂_same]
      exact fun g hg => wienerCfgIn_of R spawn names low high limits nominal g (hk g hg)
    refine ⟨_, M, _, _, .multiple gs _ hw M hM,
      ⟨gs.map fun g => subInit ((wienerCfgIn R spawn names low high limits nominal g).low,
        (wienerCfgIn R spawn names low high limits nominal g).high) 500 h0, ?_⟩, fun s => List.forall₂_same.2 fun _ _ => rfl⟩
    rw [List.forall₂_map_left_iff, List.forall₂_map_right_iff, List.forall₂_same]
    exact fun g hg => ⟨rfl, rfl⟩

/-- Every registered environment of a permanent magnet synchronous motor, with a motor that does not move: the cosine and sine of the
angle are added and the actions delayed by two steps. -/
example (control : ControlType) (action : ActionType) : ∃ (A σ τ : Type) (space : A → Prop) (c : WSetup (σ × DeadSt A) A τ)
    (x : (σ × DeadSt A) × τ), c.plant.ps.names = stateNames .pmsm ++ ["cos(epsilon)", "sin(epsilon)"] ∧ c.plant.ps.deadTime = some 2 ∧
      ∃ mods, wbuild c = .ok mods ∧
      ∀ ops : List (Core.Op ((σ × DeadSt A) × τ) A), (∀ op ∈ ops, Proper space op) →
        Conforms c.announced (-1) 0 (-10) true (Core.run mods (Core.Env.init mods x) ops).2 := by
  obtain ⟨name, d, hd, hmatch, -⟩ := entry_of ⟨.pmsm, control, action⟩
  have hmot : d.motor = .pmsm := hmatch.motor
  obtain ⟨D, hD, y, hy⟩ := drives_exists d.motor
  obtain ⟨A, C, pw, c0, space, hpw⟩ := powered_exists d.tau d.action d.converter
  obtain ⟨a, ha⟩ := powered_space hpw
  have hxt : Added d.motor id [("cos(" ++ "epsilon" ++ ")", -1, 1), ("sin(" ++ "epsilon" ++ ")", -1, 1)] := by
    refine ⟨by decide, ?_, fun _ _ => rfl, ?_⟩
    · simp only [hmot, List.mem_cons, List.not_mem_nil, or_false, forall_eq_or_imp, forall_eq]
      decide +kernel
    · simp
  obtain ⟨τ, gen, new, reseeded, hg, ⟨s, hs⟩, hr⟩ := c124_generators demoRng (fun n => n) ⟨.pmsm, control, action⟩ hd
    (stateNames d.motor ++ ["cos(" ++ "epsilon" ++ ")", "sin(" ++ "epsilon" ++ ")"]) (low d.motor ++ [-1, -1]) (high d.motor ++ [1, 1])
    (List.replicate (stateNames d.motor).length 2 ++ [1, 1]) (List.replicate (stateNames d.motor).length 1 ++ [1, 1])
    (added_nodup hxt) (fun n h => List.mem_append_left _ h) 0
  set c := Registry.setup d (restingParts pw) (D.frame A) D.rep (List.replicate (stateNames d.motor).length 2) (fun g : Unit => (g, y))
    (fun _ g => g) gen (fun _ s => s) id 1 with hc
  set p := bare c (List.replicate (stateNames d.motor).length 1) with hp
  have hmem : "epsilon" ∈ p.ps.names := by
    show "epsilon" ∈ stateNames d.motor
    rw [hmot]
    decide +kernel
  obtain ⟨i, hi⟩ := enumPos_mem hmem
  have hw : cosSin "epsilon" false p.ps = .ok (cosSinAt i "epsilon" false p.ps) := by
    have : position p.ps.pos "epsilon" = .ok i := position_ok.2 hi
    simp only [cosSin, this, Except.map]
  have hW := Wrapping.dead _ _ _ _ _ 2 (fun _ => [a, a]) (Wrapping.cosSin p space id [] false "epsilon" _ (Wrapping.none (p₀ := p)) hw)
    (by norm_num) (fun _ => ⟨by simp, by simp [ha]⟩)
  obtain ⟨h0, -, mods, h1, h2⟩ := c124_registered demoRng_ok ⟨.pmsm, control, action⟩ hd hD hpw (restingParts pw) ⟨rfl, rfl, rfl, rfl⟩
    ⟨fun _ _ _ => rfl, fun _ => rfl, fun _ _ _ h => h, fun _ _ _ h => h⟩ _ _ (by simp) (by simp) (fun n hn => by
      simp only [Nominal, entry, List.getD_eq_getElem?_getD, List.getElem?_replicate]
      split_ifs <;> norm_num) (fun g : Unit => (g, y)) (fun _ => hy) (fun _ g => g) id (fun _ _ => rfl) 1 gen (fun _ s => s) hW hxt hg
    (fun _ s => hr s) ((({ t := 0, k := 0, solver := (y, 0), conv := c0, supply := () }, ()), ⟨[], 0⟩), s) rfl hs rfl
  exact ⟨A, _, τ, space, _, _, h0.trans (by rw [hmot]; rfl), rfl, mods, h1, h2⟩

/-- a system with an angle and a speed that do not change, and the environment with the angle removed -/
def angleSystem : Plant Unit ℕ := ⟨rest ℕ ["epsilon", "omega"] [Real.pi, 100] [0, 1 / 2] 1, fun _ => 0, fun _ st => st⟩

def angleEnv : WSetup Unit ℕ Unit where
  plant := angleSystem.same (cosSinAt 0 "epsilon" true angleSystem.ps)
  gen := constGen "omega" [true, false, false] 0
  seedRef _ t := t
  lower := id
  allStates := "all_states"
  wse := Wse.init (some (.dict [("omega", 1)])) false none (9 / 10) (.scalar 1) (.num 0)
  limited := ["omega"]
  squares := []
  filter := none
  nCb := 0

/-- The state is speed, cosine and sine; the observation of the reset is angle, speed and cosine. -/
example : ∃ w m idx env', modules angleEnv.announced = .ok (w, m, idx) ∧
    cosSin "epsilon" true angleSystem.ps = .ok (cosSinAt 0 "epsilon" true angleSystem.ps) ∧
    angleEnv.announced.names = ["omega", "cos(epsilon)", "sin(epsilon)"] ∧
    (Env.init (wcomps angleEnv w m idx) ((), ())).reset (wcomps angleEnv w m idx) 7 = (env', .ok ([0, 1 / 2, 1], [0])) := by
  have hw : ∃ w, setModules angleEnv.announced.lower angleEnv.announced.wse ⟨angleEnv.announced.names, angleEnv.announced.low,
      angleEnv.announced.high, angleEnv.announced.gen.referenced⟩ = .ok w := by
    simp [angleEnv, WSetup.announced, setModules, Wse.init, setStateArray, weightArray, Except.map, finish, violationOf, Plant.same,
      cosSinAt, del, angleSystem, rest, stateDictToStateArray, lookup, defaultViolation]
    norm_num
  obtain ⟨x, hx⟩ := (c114_constructed angleEnv.announced (fun _ _ => rfl) hw).2 ⟨Or.inr (by
    simp [angleEnv, WSetup.announced, Plant.same, cosSinAt, del, angleSystem, rest]), by simp [angleEnv, WSetup.announced], fun n hn => hn⟩
  unfold build at hx
  cases hm : modules angleEnv.announced with
  | error e => simp [hm, Except.map] at hx
  | ok z =>
    obtain ⟨w, m, idx⟩ := z
    have ho : take [0, 1 / 2, 1, 0] idx = ([0, 1 / 2, 1] : List ℝ) :=
      (observation_of hm [0, 1 / 2, 1, 0]).trans (shown_prefix (by decide +kernel) (by simp [angleEnv, WSetup.announced, Plant.same, cosSinAt,
        del, angleSystem, rest]))
    have e1 : ∀ x, (wcomps angleEnv w m idx).psReset x = (x, .ok [0, 1 / 2, 1, 0]) := fun x => by
      simp [wcomps, angleEnv, Plant.same, cosSinAt, angleSystem, rest, post, cosSinOf, Wrap.getE, Except.map, Except.bind]
    have e2 : ∀ x s, (wcomps angleEnv w m idx).refReset x s = (x, .ok ([0, 0, 0], [0])) := fun x s => by
      simp [wcomps, angleEnv, constGen, place, baseReset, Call.bind]
    have e3 : ∃ env', (Env.init (wcomps angleEnv w m idx) ((), ())).reset (wcomps angleEnv w m idx) 7
        = (env', .ok ([0, 1 / 2, 1], [0])) := by
      unfold Env.reset
      simp only [Env.call, wfire_comp, Call.bind, e1, e2]
      exact ⟨_, by rw [← ho]; rfl⟩
    obtain ⟨env', e3⟩ := e3
    exact ⟨w, m, idx, env', rfl, rfl, rfl, e3⟩

end

end GEM.Props
