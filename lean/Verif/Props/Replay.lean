import Verif.Props.Registry
import Verif.Props.Restart

/-!
# C04: registered environments
-/

set_option linter.unusedSectionVars false

namespace GEM.Props

noncomputable section

open GEM GEM.Sys GEM.Conv GEM.Refs GEM.Assembly GEM.Registry GEM.Seeding

/-! ## Converters and systems -/

/-- number of currents of a converter -/
def argDim : ConvArg → ℕ
  | .single k => (bridgeKind k).dim
  | .multi ks => dims (ks.map bridgeKind)

theorem newF_kin (k : Bridge) (tau : ℝ) : FKin ((newF k).setTau tau) ((newF k).setTau tau) := by
  have h : ∀ t : ℝ, TwoKin (⟨t, 0, 0, 0, [], 0⟩ : TwoQC ℝ) ⟨t, 0, 0, 0, [], 0⟩ := fun t => by simp [TwoKin]
  cases k
  · exact .four (h _) (h _)
  · exact .b6 (h _) (h _) (h _)

theorem newF_dim (k : Bridge) (tau : ℝ) : ((newF k).setTau tau).dim = (bridgeKind k).dim := by cases k <;> rfl

theorem newC_dim (k : Bridge) (tau : ℝ) : ((newC k).setTau tau).dim = (bridgeKind k).dim := by cases k <;> rfl

theorem sum_dims {X : Type} (f : X → ℕ) (g : Bridge → X) (h : ∀ k, f (g k) = (bridgeKind k).dim) (ks : List Bridge) :
    ((ks.map g).map f).sum = dims (ks.map bridgeKind) := by
  induction ks with
  | nil => rfl
  | cons k ks ih =>
    simp only [List.map_cons, List.sum_cons, dims] at ih ⊢
    rw [ih, h]

/-- The default converters forget their past. -/
theorem powered_forgets {tau : ℝ} {a : ActionType} {arg : ConvArg} {A C : Type} {pw : Power A C} {c : C} {space : A → Prop}
    (hp : Powered tau a arg A C pw c space) :
    ∃ kinC near armed legal, Forgetting pw kinC near armed legal (argDim arg) ∧ kinC c ∧ ∀ x, space x → legal x := by
  cases hp with
  | finite k =>
    have h := f_forgets ((newF k).setTau tau)
    rw [newF_dim] at h
    exact ⟨_, _, _, _, h, newF_kin k tau, fun _ _ => trivial⟩
  | continuous k =>
    have h := c_forgets ((newC k).setTau tau)
    rw [newC_dim] at h
    exact ⟨_, _, _, _, h, rfl, fun _ _ => trivial⟩
  | finiteMulti ks =>
    have h := fMulti_forgets (multiSetTau (ks.map newF) tau)
    have e : ((multiSetTau (ks.map newF) tau).map FConv.dim).sum = argDim (.multi ks) := by
      simp only [multiSetTau, List.map_map]
      rw [← List.map_map]
      exact sum_dims FConv.dim _ (fun k => newF_dim k tau) ks
    rw [e] at h
    refine ⟨_, _, _, _, h, ?_, fun x hx => ?_⟩
    · simp only [multiSetTau, List.map_map]
      rw [List.forall₂_map_left_iff, List.forall₂_map_right_iff, List.forall₂_same]
      exact fun k _ => newF_kin k tau
    · simp only [multiSetTau, List.length_map]
      exact hx.length_eq.symm
  | contMulti ks =>
    have h := cMulti_forgets (cMultiSetTau (ks.map newC) tau)
    have e : ((cMultiSetTau (ks.map newC) tau).map CConv.dim).sum = argDim (.multi ks) := by
      simp only [cMultiSetTau, List.map_map]
      rw [← List.map_map]
      exact sum_dims CConv.dim _ (fun k => newC_dim k tau) ks
    rw [e] at h
    refine ⟨_, _, _, _, h, ?_, fun _ _ => trivial⟩
    rw [List.forall₂_same]
    exact fun _ _ => rfl

/-- The converter gets as many currents as it has outputs, and the action of the user. -/
theorem drives_frame {t : MotorType} {D : Drive} (hD : Drives t D) (A : Type) :
    (∀ y, D.shape y → ((D.frame A).iIn y).length = argDim (converterOf t)) ∧ ∀ y a, (D.frame A).action y a = a := by
  cases hD with
  | permExDc tq => exact ⟨fun y hy => hy.2, fun _ _ => rfl⟩
  | seriesDc tq => exact ⟨fun y hy => hy.2, fun _ _ => rfl⟩
  | shuntDc tq => exact ⟨fun y hy => rfl, fun _ _ => rfl⟩
  | extExDc tq => exact ⟨fun y hy => hy.2, fun _ _ => rfl⟩
  | pmsm tq => exact ⟨fun y hy => rfl, fun _ _ => rfl⟩
  | synRm tq => exact ⟨fun y hy => rfl, fun _ _ => rfl⟩
  | scim tq => exact ⟨fun y hy => rfl, fun _ _ => rfl⟩
  | dfim lm lsigr tq => exact ⟨fun y hy => rfl, fun _ _ => rfl⟩
  | eesm tq => exact ⟨fun y hy => rfl, fun _ _ => rfl⟩

/-! ## Default reference generators -/

section generators

variable {H σ : Type}

theorem obj_provides {g : Seeded σ ℝ} {low high : List ℝ} {fresh : σ → Prop} {ready : Stream → σ → Prop}
    (hlow : ∀ r, (g.gen r).low = (g.gen ⟨0, []⟩).low) (hhigh : ∀ r, (g.gen r).high = (g.gen ⟨0, []⟩).high)
    (h : ∀ r, Provides (g.gen r) low high fresh (ready r)) :
    Provides g.obj low high (fun x => fresh x.2) (fun x => ready x.1 x.2) where
  reset x s init hx hi := by
    obtain ⟨t', r, o, h1, h2, h3, h4⟩ := (h x.1).reset x.2 s init hx hi
    refine ⟨(x.1, t'), r, o, by simp only [Seeded.obj, h1], h2, ?_, h4⟩
    simp only [Seeded.obj]
    rw [← hlow x.1, ← hhigh x.1]
    exact h3
  getRef x s hx := by
    obtain ⟨t', r, h1, h2, h3⟩ := (h x.1).getRef x.2 s hx
    exact ⟨(x.1, t'), r, by simp only [Seeded.obj, h1], h2, h3⟩
  getObs x s hx := by
    obtain ⟨t', o, h1, h2, h3⟩ := (h x.1).getObs x.2 s hx
    refine ⟨(x.1, t'), o, by simp only [Seeded.obj, h1], ?_, h3⟩
    simp only [Seeded.obj]
    rw [← hlow x.1, ← hhigh x.1]
    exact h2
  fresh x hx := (h x.1).fresh x.2 hx

/-- the class of the default reference generator, with the attributes of generators that have not been used yet -/
inductive SeedsDefault (rng : Stream → H) (R : Rng H) (t : MotorType) (limits nominal : List ℝ) :
    RefArg → (τ : Type) → Seeded τ ℝ → (Stream × τ → Prop) → Prop
  | one (g : WienerArg) (c : SubCfg H ℝ) (h : WienerOf R t limits nominal g c) :
      SeedsDefault rng R t limits nominal (.one g) (SubSt H ℝ) (subSeeded rng c) (fun x => Unused c x.2)
  | multiple (gs : List WienerArg) (cs : List (SubCfg H ℝ)) (h : List.Forall₂ (WienerOf R t limits nominal) gs cs)
      (M : Seeded (List (Stream × SubSt H ℝ)) ℝ) (hM : multiSeeded (stateNames t).length (cs.map (subSeeded rng)) = .ok M) :
      SeedsDefault rng R t limits nominal (.multiple gs) (List (Stream × SubSt H ℝ)) M
        (fun x => List.Forall₂ (fun c y => Unused c y.2) cs x.2)

theorem wiener_seeded {rng : Stream → H} {R : Rng H} (hR : RngOk R) {t : MotorType} {limits nominal : List ℝ} {g : WienerArg} {c : SubCfg H ℝ}
    (h : WienerOf R t limits nominal g c) (hn : NominalOk t limits nominal [g.state]) (hm : MarginOk g.margin) :
    Provides (subSeeded rng c).obj (low t) (high t) (fun x => SubFresh c x.2)
      (fun x => SubReady { c with spawn := fun n => rng (child x.1 n) } x.2) := by
  obtain ⟨hs, hmask⟩ := mask_ok h.mask
  obtain ⟨b1, b2, b3⟩ := wiener_bounds h hn hm
  have hlen := (low_spec t).1
  refine obj_provides (fresh := SubFresh c) (ready := fun r => SubReady { c with spawn := fun n => rng (child r n) }) (fun _ => rfl) (fun _ => rfl)
    fun r => ?_
  exact sub_provides hR (.wiener (.pair g.sigma.1 g.sigma.2)) ⟨_, _, rfl⟩ (.pair 500 2000) trivial
    (by norm_num [Range.least]) { c with spawn := fun n => rng (child r n) } h.make h.length (low t) (high t) (by rw [hlen]; simp [high])
    (by rw [hmask, hlen]; simp) (by rw [hmask]; simpa using hs) b2 (by
      intro i hi
      rw [hlen] at hi
      split_ifs with hc
      · rw [hmask] at hc
        rw [mask_at (stateNames_nodup t) hc]
        exact ⟨b1, b3⟩
      · rw [entry_high t hi]
        exact ⟨((low_spec t).2 i hi).2, zero_le_one⟩)

/-- fresh, whatever the seed -/
def FreshSeeds (low high : List ℝ) (g : RefGen (Stream × SubSt H ℝ) ℝ) (x : Stream × SubSt H ℝ) : Prop :=
  ∃ fresh ready, Provides g low high fresh ready ∧ (∀ x x' : Stream × SubSt H ℝ, fresh x → Reseeded x.2 x'.2 → fresh x') ∧ fresh x

/-- ready, and fresh whatever the seed -/
def ReadySeeds (low high : List ℝ) (g : RefGen (Stream × SubSt H ℝ) ℝ) (x : Stream × SubSt H ℝ) : Prop :=
  ∃ fresh ready, Provides g low high fresh ready ∧ (∀ x x' : Stream × SubSt H ℝ, fresh x → Reseeded x.2 x'.2 → fresh x') ∧ ready x

theorem provides_seeds (g : RefGen (Stream × SubSt H ℝ) ℝ) (low high : List ℝ) :
    Provides g low high (FreshSeeds low high g) (ReadySeeds low high g) where
  reset t s init := by
    rintro ⟨fresh, ready, h, hc, ht⟩ hi
    obtain ⟨t', r, o, h1, h2, h3, h4⟩ := h.reset t s init ht hi
    exact ⟨t', r, o, h1, h2, h3, fresh, ready, h, hc, h4⟩
  getRef t s := by
    rintro ⟨fresh, ready, h, hc, ht⟩
    obtain ⟨t', r, h1, h2, h3⟩ := h.getRef t s ht
    exact ⟨t', r, h1, h2, fresh, ready, h, hc, h3⟩
  getObs t s := by
    rintro ⟨fresh, ready, h, hc, ht⟩
    obtain ⟨t', r, h1, h2, h3⟩ := h.getObs t s ht
    exact ⟨t', r, h1, h2, fresh, ready, h, hc, h3⟩
  fresh t := by
    rintro ⟨fresh, ready, h, hc, ht⟩
    exact ⟨fresh, ready, h, hc, h.fresh t ht⟩

theorem multiSeeded_is {n : ℕ} {gs : List (Seeded σ ℝ)} {M : Seeded (List (Stream × σ)) ℝ} (h : multiSeeded n gs = .ok M) :
    ∃ G, multiGen n (gs.map Seeded.obj) = .ok G ∧ M = ⟨fun _ => G, true, fun r xs => seedSubs gs r 1 xs⟩ := by
  unfold multiSeeded at h
  cases hg : multiGen n (gs.map Seeded.obj) with
  | error e => simp [hg, Except.map] at h
  | ok G =>
    simp only [hg, Except.map, Except.ok.injEq] at h
    exact ⟨G, rfl, h.symm⟩

theorem fresh_reseeded {c : SubCfg H ℝ} {s s' : SubSt H ℝ} (h : SubFresh c s) (hr : Reseeded s s') : SubFresh c s' := by
  rw [hr]
  exact h

theorem unused_fresh {c : SubCfg H ℝ} {s : SubSt H ℝ} (h : Unused c s) : SubFresh c s :=
  ⟨h.2, fun l hl => by rw [h.1] at hl; simp at hl⟩

theorem seedSubs_reseeded (rng : Stream → H) (cs : List (SubCfg H ℝ)) (r : Stream) (n : ℕ) (xs : List (Stream × SubSt H ℝ)) :
    List.Forall₂ (fun x x' => Reseeded x.2 x'.2) xs (seedSubs (cs.map (subSeeded rng)) r n xs) := by
  induction cs generalizing n xs with
  | nil =>
    have e : seedSubs (([] : List (SubCfg H ℝ)).map (subSeeded rng)) r n xs = xs := by cases xs <;> rfl
    rw [e, List.forall₂_same]
    exact fun _ _ => rfl
  | cons c cs ih =>
    cases xs with
    | nil => exact .nil
    | cons x xs => exact .cons rfl (ih _ _)

theorem seedsDefault_provides {rng : Stream → H} {R : Rng H} (hR : RngOk R) {t : MotorType} {limits nominal : List ℝ} {arg : RefArg} {τ : Type}
    {g : Seeded τ ℝ} {new : Stream × τ → Prop} (h : SeedsDefault rng R t limits nominal arg τ g new)
    (hn : NominalOk t limits nominal (arg.list.map (·.state))) (hm : ∀ g ∈ arg.list, MarginOk g.margin) :
    g.obj.referenced.length = (stateNames t).length ∧
    ∃ fresh ready, Provides g.obj (low t) (high t) fresh ready ∧ (∀ s, new s → fresh s) ∧ ∀ n s, fresh s → fresh (g.envSeed n s) := by
  have hlen := (low_spec t).1
  cases h with
  | one g c h =>
    refine ⟨?_, _, _, wiener_seeded hR h (by simpa [RefArg.list] using hn) (hm g (by simp [RefArg.list])), fun s hs => unused_fresh hs,
      fun n s hs => fresh_reseeded (s := s.2) hs rfl⟩
    show c.mask.length = _
    rw [(mask_ok h.mask).2, List.length_map]
  | multiple gs cs h M hM =>
    have hon : ∀ g ∈ (cs.map (subSeeded rng)).map Seeded.obj, Honest (low t).length g := by
      intro g hg
      rw [List.map_map] at hg
      obtain ⟨c, hc, rfl⟩ := List.mem_map.1 hg
      obtain ⟨i, hi, rfl⟩ := List.mem_iff_getElem.1 hc
      have := (List.forall₂_iff_get.1 h).2 i (by rw [h.length_eq]; exact hi) hi
      have hl : (cs[i]).mask.length = (low t).length := by
        have := (mask_ok this.mask).2
        simp only [List.get_eq_getElem] at this
        rw [this, List.length_map, hlen]
      rw [← hl]
      obtain ⟨-, k2, k3⟩ := (c43_honest (K := ℝ) (G := H)).1 cs[i]
      exact ⟨rfl, fun st s v hv => k2 st.2 s v hv, fun st s init v o hv =>
        ((c43_honest (K := ℝ) (G := H)).1 { cs[i] with spawn := fun n => rng (child st.1 n) }).2.2 st.2 s init v o hv⟩
    obtain ⟨G, hG, rfl⟩ := multiSeeded_is hM
    have hP := multiple_provides (FreshSeeds (low t) (high t)) (ReadySeeds (low t) (high t)) (low t) (high t)
      (fun g => provides_seeds g _ _) (by rw [hlen]; simp [high]) (by rw [hlen]; exact hG) hon (fun i hi => by
        rw [hlen] at hi
        rw [entry_high t hi]
        exact ⟨((low_spec t).2 i hi).2, zero_le_one⟩)
    refine ⟨?_, _, _, obj_provides (fun _ => rfl) (fun _ => rfl) (fun _ => hP), fun ss hss => ?_, fun n ss hf => ?_⟩
    · obtain ⟨-, -, rfl⟩ := multiGen_ok hG
      simp [Seeded.obj]
    · dsimp only at hss
      rw [List.map_map, List.forall₂_map_left_iff]
      rw [List.forall₂_iff_get] at hss h ⊢
      refine ⟨hss.1, fun i h1 h2 => ?_⟩
      have hw := h.2 i (by rw [h.1]; exact h1) h1
      have hg : gs.get ⟨i, by rw [h.1]; exact h1⟩ ∈ (RefArg.multiple gs).list := List.get_mem _ _
      exact ⟨_, _, wiener_seeded hR hw (fun n hn' => hn n (by
        simp only [List.mem_singleton] at hn'
        rw [hn']
        exact List.mem_map_of_mem hg)) (hm _ hg), fun x x' => fresh_reseeded, unused_fresh (hss.2 i h1 h2)⟩
    · have hr := seedSubs_reseeded rng cs ⟨n, [1]⟩ 1 ss.2
      show List.Forall₂ _ _ (seedSubs (cs.map (subSeeded rng)) ⟨n, [1]⟩ 1 ss.2)
      rw [List.forall₂_iff_get] at hf hr ⊢
      refine ⟨hf.1.trans hr.1, fun i h1 h2 => ?_⟩
      obtain ⟨fresh, ready, p1, p2, p3⟩ := hf.2 i h1 (by rw [hr.1]; exact h2)
      exact ⟨fresh, ready, p1, p2, p2 _ _ p3 (hr.2 i (by rw [hr.1]; exact h2) h2)⟩

theorem seedsDefault_recalls {rng : Stream → H} {R : Rng H} {t : MotorType} {limits nominal : List ℝ} {arg : RefArg} {τ : Type}
    {g : Seeded τ ℝ} {new : Stream × τ → Prop} (h : SeedsDefault rng R t limits nominal arg τ g new) :
    ∃ M, Recallable g M ∧ ∀ s, new s → M.kin s := by
  cases h with
  | one g c h => exact ⟨_, sub_recallable rng c (c.low, c.high), fun s hs => hs.2⟩
  | multiple gs cs h M hM =>
    refine ⟨_, multi_recallable (Ms := cs.map fun c => subMemory (c.low, c.high)) hM ?_, fun s hs => ?_⟩
    · rw [List.forall₂_map_left_iff, List.forall₂_map_right_iff, List.forall₂_same]
      exact fun c _ => sub_recallable rng c _
    · show List.Forall₂ _ _ _
      rw [List.forall₂_map_left_iff]
      exact hs.imp fun c y hy => hy.2

end generators

/-- C04 (generators): sub-episoded generators, generators without attributes (constant and zero references), and multiple and
switched generators of generators that forget their past, forget their past when they are seeded. -/
theorem c04_generators {G σ : Type} :
    (∀ (rng : Stream → G) (c : SubCfg G ℝ) (margin : ℝ × ℝ), ∃ M, Recallable (subSeeded rng c) M ∧ ∀ x, x.2.margin = margin → M.kin x) ∧
    (∀ g : RefGen Unit ℝ, ∃ M, Recallable (plainSeeded g) M ∧ ∀ x, M.kin x) ∧
    (∀ (n : ℕ) (gs : List (Seeded σ ℝ)) (Ms : List (Memory (Stream × σ))) (S : Seeded (List (Stream × σ)) ℝ), multiSeeded n gs = .ok S →
      List.Forall₂ Recallable gs Ms → ∃ M, Recallable S M ∧ ∀ x, List.Forall₂ (fun M y => M.kin y) Ms x.2 → M.kin x) ∧
    ∀ (rng : Stream → G) (gs : List (Seeded σ ℝ)) (integers : G → G × ℤ) (choice : G → G × ℕ) (Ms : List (Memory (Stream × σ)))
      (S : Seeded (SwSt G (Stream × σ) ℝ) ℝ), switchedSeeded rng gs integers choice = .ok S →
      List.Forall₂ Recallable gs Ms → ∃ M, Recallable S M ∧ ∀ x, List.Forall₂ (fun M y => M.kin y) Ms x.2.subs → M.kin x :=
  ⟨fun rng c margin => ⟨_, sub_recallable rng c margin, fun _ h => h⟩,
    fun g => ⟨_, plain_recallable g, fun _ => trivial⟩,
    fun _ _ _ _ hS h => ⟨_, multi_recallable hS h, fun _ h => h⟩,
    fun _ _ _ _ _ _ hS h => ⟨_, switched_recallable hS h, fun _ h => h⟩⟩

/-! ## Environments -/

section environments

variable {A C S P G τ H : Type}

theorem run_concat {comp A S R O : Type} (m : Core.Comps comp A S R O ℝ) (e : Core.Env comp A S R O ℝ) (ops ops' : List (Core.Op comp A)) :
    Core.run m e (ops ++ ops') =
      ((Core.run m (Core.run m e ops).1 ops').1, (Core.run m e ops).2 ++ (Core.run m (Core.run m e ops).1 ops').2) := by
  induction ops generalizing e with
  | nil => rfl
  | cons op ops ih => simp only [List.cons_append, Core.run, ih]

/-- Histories that conform have no exceptions. -/
theorem conforms_unraised {Y U σ : Type} {c : Setup Y U A S C P G τ} {lo hi v : ℝ} (b : Bool)
    (h : List (Core.Op σ A × Core.Out (List ℝ) (List ℝ) ℝ)) (hc : Conforms c lo hi v b h) :
    ∀ x ∈ h, (∃ n, x.1 = .reset n) ∨ (∃ a, x.1 = .step a) → ¬ Raised x.2 := by
  induction h generalizing b with
  | nil => simp
  | cons x h ih =>
    obtain ⟨op, out⟩ := x
    intro y hy
    rcases List.mem_cons.1 hy with rfl | hy'
    · rintro (⟨n, hn⟩ | ⟨a, hn⟩)
      · dsimp only at hn
        subst hn
        obtain ⟨⟨s, o, rfl, -⟩, -⟩ := hc
        exact id
      · dsimp only at hn
        subst hn
        cases b with
        | true =>
          obtain ⟨rfl, -⟩ := hc
          exact id
        | false =>
          obtain ⟨r, rfl, -⟩ := hc
          exact id
    · cases op with
      | reset n => exact ih _ hc.2 y hy'
      | step a =>
        cases b with
        | true => exact ih _ hc.2 y hy'
        | false =>
          obtain ⟨r, -, -, hc⟩ := hc
          exact ih _ hc y hy'
      | close => cases b <;> exact ih _ hc y hy'
      | setRef f => cases b <;> exact ih _ hc y hy'
      | setReward f => cases b <;> exact ih _ hc y hy'

theorem run_ops {comp A S R O : Type} (m : Core.Comps comp A S R O ℝ) (e : Core.Env comp A S R O ℝ) (ops : List (Core.Op comp A)) :
    ∀ x ∈ (Core.run m e ops).2, x.1 ∈ ops := by
  induction ops generalizing e with
  | nil => simp [Core.run]
  | cons op ops ih =>
    intro x hx
    simp only [Core.run, List.mem_cons] at hx ⊢
    rcases hx with rfl | hx
    · exact Or.inl rfl
    · exact Or.inr (ih _ x hx)

/-- All modules of a registered environment forget their past. -/
theorem registered_reproduces (m : Motor) {name : String} {d : Defaults} (hd : make m.envId = some (name, d))
    {D : Drive} (hD : Drives d.motor D) {pw : Power A C} {conv : C} {space : A → Prop}
    (hpw : Powered d.tau d.action d.converter A C pw conv space) (p : Parts ℝ D.Y D.U A S C P) (hu : Uses p pw) (hs : Shaped p D.shape)
    {kinS : S → Prop} {kinP still : P → Prop} (hp : Restarts p kinS kinP still) (limits : List ℝ)
    {start : G → G × D.Y} {seedSystem : ℕ → G → G} {kinG : G → Prop} (hG : Draws start seedSystem kinG D.shape)
    {g : Seeded τ ℝ} {M : Memory (Stream × τ)} (hg : Recallable g M) (lower : String → String) (nCb : ℕ) :
    ∃ kinC near armed legal, kinC conv ∧
      Reproduces (Registry.setup d p (D.frame A) D.rep limits start seedSystem g.obj g.envSeed lower nCb) pw kinC near armed legal space
        (argDim d.converter) kinS kinP still kinG M.kin M.warm M.hot D.shape := by
  obtain ⟨name', d', hd', -, hfit⟩ := entry_of m
  rw [hd, Option.some.injEq, Prod.mk.injEq] at hd'
  obtain ⟨rfl, rfl⟩ := hd'
  obtain ⟨kinC, near, armed, legal, h1, h2, h3⟩ := powered_forgets hpw
  obtain ⟨f1, f2⟩ := drives_frame hD A
  refine ⟨kinC, near, armed, legal, h2, ⟨hu, h1, hp, hs, ?_, ?_, hG, recalls_of hg⟩⟩
  · rw [hfit.converter]
    exact f1
  · intro y a ha
    show legal ((D.frame A).action y a)
    rw [f2]
    exact h3 a ha

/-- C04 (registered environments): every environment of the package with its default converter, and with any load, supply, solver and
reference generator that forget their past.  Two instances with arbitrary histories before (illegal actions and exceptions included):
`reset(seed)` and the same actions give the same answers, until an exception. -/
theorem c04_registered_partial (m : Motor) {name : String} {d : Defaults} (hd : make m.envId = some (name, d))
    {D : Drive} (hD : Drives d.motor D) {pw : Power A C} {conv : C} {space : A → Prop}
    (hpw : Powered d.tau d.action d.converter A C pw conv space) (p : Parts ℝ D.Y D.U A S C P) (hu : Uses p pw) (hs : Shaped p D.shape)
    {kinS : S → Prop} {kinP still : P → Prop} (hp : Restarts p kinS kinP still) (limits : List ℝ)
    {start : G → G × D.Y} {seedSystem : ℕ → G → G} {kinG : G → Prop} (hG : Draws start seedSystem kinG D.shape)
    {g : Seeded τ ℝ} {M : Memory (Stream × τ)} (hg : Recallable g M) (lower : String → String) (nCb : ℕ)
    {mods : Core.Comps (World S C P G (Stream × τ)) A (List ℝ) (List ℝ) (List ℝ) ℝ}
    (hm : build (Registry.setup d p (D.frame A) D.rep limits start seedSystem g.obj g.envSeed lower nCb) = .ok mods)
    (x x' : World S C P G (Stream × τ)) (hx : x.sys.conv = conv ∧ kinS x.sys.solver ∧ kinP x.sys.supply ∧ kinG x.draws ∧ M.kin x.ref)
    (hx' : x'.sys.conv = conv ∧ kinS x'.sys.solver ∧ kinP x'.sys.supply ∧ kinG x'.draws ∧ M.kin x'.ref)
    (ops ops' : List (Core.Op (World S C P G (Stream × τ)) A)) (hops : ∀ f, .setRef f ∉ ops ++ ops' ∧ .setReward f ∉ ops ++ ops')
    (seed : ℕ) (acts : List A) (ha : ∀ a ∈ acts, space a)
    (hr : ∀ r ∈ (Core.run mods (Core.run mods (Core.Env.init mods x) ops).1 (.reset seed :: acts.map .step)).2, ¬ Raised r.2) :
    (Core.run mods (Core.run mods (Core.Env.init mods x') ops').1 (.reset seed :: acts.map .step)).2 =
      (Core.run mods (Core.run mods (Core.Env.init mods x) ops).1 (.reset seed :: acts.map .step)).2 := by
  obtain ⟨kinC, near, armed, legal, h1, h2⟩ := registered_reproduces m hd hD hpw p hu hs hp limits hG hg lower nCb
  unfold build at hm
  cases hmo : modules (Registry.setup d p (D.frame A) D.rep limits start seedSystem g.obj g.envSeed lower nCb) with
  | error e => simp [hmo, Except.map] at hm
  | ok t =>
    obtain ⟨w, mo, idx⟩ := t
    simp only [hmo, Except.map, Except.ok.injEq] at hm
    subst hm
    exact c04_assembled_partial h2 x x' ⟨by rw [hx.1]; exact h1, hx.2⟩ ⟨by rw [hx'.1]; exact h1, hx'.2⟩ ops ops'
      (fun f hf => hf.elim (fun h => ((hops f).1 h).elim) (fun h => ((hops f).2 h).elim)) seed acts ha hr

/-- C04 (default environments): every environment of the package with its default converter and its default reference generator, and with
any load, supply and solver that forget their past.  Two instances with arbitrary histories of resets and actions of the action space:
`reset(seed)` and the same actions give the same observations, references, rewards and flags. -/
theorem c04_default {rng : Stream → H} {R : Rng H} (hR : RngOk R) (m : Motor) {name : String} {d : Defaults}
    (hd : make m.envId = some (name, d)) {D : Drive} (hD : Drives d.motor D) {pw : Power A C} {conv : C} {space : A → Prop}
    (hpw : Powered d.tau d.action d.converter A C pw conv space) (p : Parts ℝ D.Y D.U A S C P) (hu : Uses p pw) (hs : Shaped p D.shape)
    {kinS : S → Prop} {kinP still : P → Prop} (hp : Restarts p kinS kinP still)
    (limits nominal : List ℝ) (hl : limits.length = (stateNames d.motor).length)
    (hn : NominalOk d.motor limits nominal (d.references.list.map (·.state)))
    {start : G → G × D.Y} {seedSystem : ℕ → G → G} {kinG : G → Prop} (hG : Draws start seedSystem kinG D.shape)
    {g : Seeded τ ℝ} {new : Stream × τ → Prop} (hg : SeedsDefault rng R d.motor limits nominal d.references τ g new)
    (lower : String → String) (hlower : ∀ n ∈ stateNames d.motor, lower n = n) (nCb : ℕ) :
    ∃ mods, build (Registry.setup d p (D.frame A) D.rep limits start seedSystem g.obj g.envSeed lower nCb) = .ok mods ∧
      ∀ x x' : World S C P G (Stream × τ),
      (x.sys.k = 0 ∧ x.sys.conv = conv ∧ kinS x.sys.solver ∧ kinP x.sys.supply ∧ kinG x.draws ∧ new x.ref) →
      (x'.sys.k = 0 ∧ x'.sys.conv = conv ∧ kinS x'.sys.solver ∧ kinP x'.sys.supply ∧ kinG x'.draws ∧ new x'.ref) →
      ∀ ops ops' : List (Core.Op (World S C P G (Stream × τ)) A), (∀ op ∈ ops, Proper space op) → (∀ op ∈ ops', Proper space op) →
      ∀ (seed : ℕ) (acts : List A), (∀ a ∈ acts, space a) →
        (Core.run mods (Core.run mods (Core.Env.init mods x') ops').1 (.reset seed :: acts.map .step)).2 =
          (Core.run mods (Core.run mods (Core.Env.init mods x) ops).1 (.reset seed :: acts.map .step)).2 := by
  obtain ⟨name', d', hd', hmatch, hfit⟩ := entry_of m
  rw [hd, Option.some.injEq, Prod.mk.injEq] at hd'
  obtain ⟨rfl, rfl⟩ := hd'
  obtain ⟨M, hM, hnew⟩ := seedsDefault_recalls hg
  obtain ⟨href, fresh, ready, g1, g2, g3⟩ := seedsDefault_provides hR hg hn hfit.margins
  obtain ⟨w, mo, idx, e1, e2⟩ := provided_environment m hd hD hpw p hu hs limits hl start hG.shape seedSystem href g1 g.envSeed g3 lower
    hlower nCb
  refine ⟨comps (Registry.setup d p (D.frame A) D.rep limits start seedSystem g.obj g.envSeed lower nCb) w mo idx,
    by simp only [build, e1, Except.map], fun x x' ⟨k1, k2, k3, k4, k5, k6⟩ ⟨l1, l2, l3, l4, l5, l6⟩ ops ops' hops hops' seed acts ha => ?_⟩
  refine c04_registered_partial m hd hD hpw p hu hs hp limits hG hM lower nCb (by simp only [build, e1, Except.map]) x x'
    ⟨k2, k3, k4, k5, hnew _ k6⟩ ⟨l2, l3, l4, l5, hnew _ l6⟩ ops ops' (fun f => ⟨fun h => ?_, fun h => ?_⟩) seed acts ha fun r hr => ?_
  · exact (List.mem_append.1 h).elim (fun h => hops _ h) fun h => hops' _ h
  · exact (List.mem_append.1 h).elim (fun h => hops _ h) fun h => hops' _ h
  · have hc := conforms_unraised _ _ (e2 x k2 (g2 _ k6) k1 (ops ++ .reset seed :: acts.map .step) fun op hop => by
      rcases List.mem_append.1 hop with h | h
      · exact hops op h
      · rcases List.mem_cons.1 h with rfl | h
        · trivial
        · obtain ⟨a, h', rfl⟩ := List.mem_map.1 h
          exact ha a h')
    rw [run_concat] at hc
    refine hc r (List.mem_append_right _ hr) ?_
    rcases List.mem_cons.1 (run_ops _ _ _ r hr) with h | h
    · exact Or.inl ⟨_, h⟩
    · obtain ⟨a, -, h⟩ := List.mem_map.1 h
      exact Or.inr ⟨a, h.symm⟩

end environments

/-! ## Such environments exist -/

section existence

variable {H : Type}

theorem seedsDefault_exists (rng : Stream → H) (R : Rng H) (t : MotorType) (limits nominal : List ℝ) (arg : RefArg) (hne : arg.list ≠ [])
    (hk : ∀ g ∈ arg.list, g.state ∈ stateNames t) (hd : (arg.list.map (·.state)).Nodup) (h0 : H) (r0 : Stream) :
    ∃ (τ : Type) (g : Seeded τ ℝ) (new : Stream × τ → Prop), SeedsDefault rng R t limits nominal arg τ g new ∧ ∃ s, new s := by
  cases arg with
  | one g =>
    refine ⟨_, _, _, .one g _ (wienerCfg_of R (fun _ => h0) t limits nominal g (hk g (by simp [RefArg.list]))), ?_⟩
    exact ⟨(r0, subInit ((wienerCfg R (fun _ => h0) t limits nominal g).low, (wienerCfg R (fun _ => h0) t limits nominal g).high) 500 h0), rfl, rfl⟩
  | multiple gs =>
    have hk : ∀ g ∈ gs, g.state ∈ stateNames t := hk
    have hd : (gs.map (·.state)).Nodup := hd
    obtain ⟨M, hM⟩ := (c43_overlap (stateNames t).length
      (((gs.map (wienerCfg R (fun _ => h0) t limits nominal)).map (subSeeded rng)).map Seeded.obj)).2
      ⟨by simpa [RefArg.list] using hne, fun i j j' g g' hi h1 h2 h3 h4 => by
        simp only [List.getElem?_map, Option.map_eq_some_iff] at h1 h2
        obtain ⟨-, ⟨-, ⟨a, ha, rfl⟩, rfl⟩, rfl⟩ := h1
        obtain ⟨-, ⟨-, ⟨a', ha', rfl⟩, rfl⟩, rfl⟩ := h2
        have e1 := mask_at (stateNames_nodup t) h3
        have e2 := mask_at (stateNames_nodup t) h4
        have e : a.state = a'.state := by
          rw [e1] at e2
          exact (List.idxOf_inj (hk a (List.mem_of_getElem? ha))).1 e2
        have q1 : (gs.map (·.state))[j]? = some a.state := by simp [ha]
        have q2 : (gs.map (·.state))[j']? = some a.state := by simp [ha', e]
        obtain ⟨l1, q1⟩ := List.getElem?_eq_some_iff.1 q1
        obtain ⟨l2, q2⟩ := List.getElem?_eq_some_iff.1 q2
        exact (List.Nodup.getElem_inj_iff hd).1 (q1.trans q2.symm)⟩
    have hw : List.Forall₂ (WienerOf R t limits nominal) gs (gs.map (wienerCfg R (fun _ => h0) t limits nominal)) := by
      rw [List.forall₂_map_right_iff, List.forall₂_same]
      exact fun g hg => wienerCfg_of R (fun _ => h0) t limits nominal g (hk g hg)
    refine ⟨_, ⟨fun _ => M, true, fun r xs => seedSubs ((gs.map (wienerCfg R (fun _ => h0) t limits nominal)).map (subSeeded rng)) r 1 xs⟩, _,
      .multiple gs _ hw _ (by simp only [multiSeeded, hM, Except.map]),
      ⟨(r0, gs.map fun g => (r0, subInit ((wienerCfg R (fun _ => h0) t limits nominal g).low,
        (wienerCfg R (fun _ => h0) t limits nominal g).high) 500 h0)), ?_⟩⟩
    dsimp only
    rw [List.forall₂_map_left_iff, List.forall₂_map_right_iff, List.forall₂_same]
    exact fun g hg => ⟨rfl, rfl⟩

/-- Every registered environment, with a motor that does not move, limits 2 and nominal values 1; the random numbers are those of
`demoRng`, which starts with the sum of the key of its seed sequence. -/
example (m : Motor) : ∃ (name : String) (d : Defaults) (D : Drive) (A C τ : Type) (space : A → Prop)
    (c : Setup D.Y D.U A (D.Y × ℝ) C Unit Unit τ) (x : World (D.Y × ℝ) C Unit Unit τ), make m.envId = some (name, d) ∧
    (∃ a, space a) ∧ ∃ mods, build c = .ok mods ∧
      ∀ ops ops' : List (Core.Op (World (D.Y × ℝ) C Unit Unit τ) A), (∀ op ∈ ops, Proper space op) → (∀ op ∈ ops', Proper space op) →
      ∀ (seed : ℕ) (acts : List A), (∀ a ∈ acts, space a) →
        (Core.run mods (Core.run mods (Core.Env.init mods x) ops').1 (.reset seed :: acts.map .step)).2 =
          (Core.run mods (Core.run mods (Core.Env.init mods x) ops).1 (.reset seed :: acts.map .step)).2 := by
  obtain ⟨name, d, hd, hmatch, hfit⟩ := entry_of m
  obtain ⟨D, hD, y, hy⟩ := drives_exists d.motor
  obtain ⟨A, C, pw, c0, space, hpw⟩ := powered_exists d.tau d.action d.converter
  obtain ⟨τ, g, new, hg, s, hs⟩ := seedsDefault_exists (fun r => r.entropy + r.key.sum) demoRng d.motor
    (List.replicate (stateNames d.motor).length 2) (List.replicate (stateNames d.motor).length 1) d.references
    (fun e => by
      have := hmatch.references
      rw [e] at this
      obtain ⟨t, c, a⟩ := m
      cases t <;> cases c <;> simp [controlled] at this)
    (fun g hg => hfit.known _ (by
      simp only [List.mem_append]
      exact Or.inl (Or.inl (Or.inr (List.mem_map_of_mem hg))))) hfit.states 0 ⟨0, []⟩
  obtain ⟨mods, h1, h2⟩ := c04_default demoRng_ok m hd hD hpw (restingParts pw) ⟨rfl, rfl, rfl, rfl⟩
    ⟨fun _ _ _ => rfl, fun _ => rfl, fun _ _ _ h => h, fun _ _ _ h => h⟩ (kinS := fun _ => True) (kinP := fun _ => True)
    (still := fun _ => True) ⟨fun _ _ _ _ => trivial, fun _ _ _ _ => trivial, fun _ _ _ _ _ => rfl, fun _ _ _ _ => trivial,
      fun _ _ => trivial, fun _ _ _ _ => rfl, fun _ _ => trivial, fun _ _ _ _ => rfl⟩ _ _ (by simp) (fun n hn => by
      simp only [Nominal, Reward.entry, List.getD_eq_getElem?_getD, List.getElem?_replicate]
      split_ifs <;> norm_num) (start := fun g : Unit => (g, y)) (seedSystem := fun _ g => g) (kinG := fun _ => True)
    ⟨fun _ _ _ => trivial, fun _ _ => trivial, fun _ _ _ _ _ => rfl, fun _ => hy⟩ hg id (fun _ _ => rfl) 1
  have hx := h2 ⟨{ t := 0, k := 0, solver := (y, 0), conv := c0, supply := () }, (), s⟩
    ⟨{ t := 0, k := 0, solver := (y, 0), conv := c0, supply := () }, (), s⟩ ⟨rfl, rfl, trivial, trivial, trivial, hs⟩
    ⟨rfl, rfl, trivial, trivial, trivial, hs⟩
  exact ⟨name, d, D, A, C, _, space, _, _, hd, powered_space hpw, mods, h1, hx⟩

end existence

/-! ## Where seeding does not help -/

/-- a coil of inductance 1 at a half bridge and an ideal supply -/
def coil (up : ℝ) : Parts ℝ (DcY ℝ) (List ℝ) ℕ (DcY ℝ × ℝ) (FConv ℝ) Unit where
  solverT s := s.2
  solverY s := s.1
  integrate s u t := (⟨s.1.mech, s.1.motor.map fun i => i + (t - s.2) * u.headD 0⟩, t)
  setInitial _ y t := (y, t)
  setAction := FConv.setAction
  convert := FConv.convert
  iSup := FConv.iSup
  convReset := FConv.reset
  getVoltage p _ _ := (p, [up])
  supplyReset p := (p, [up])

/-- C04 (interlocking): with an interlocking time, the first step after a reset depends on the last step before it.  Both systems are
reset to a current of 0 and get the action 1; the current rises in the new one, but not in the one that was switched to 2 before. -/
theorem c04_interlocking_violated (tau il up : ℝ) (h0 : 0 < il) (h1 : il < tau) :
    ∃ st st' : St ℝ (DcY ℝ × ℝ) (FConv ℝ) Unit, st.conv = .two (TwoQC.new tau il) ∧
      st' = (simulate (coil up) (dcFrame id (·.headD 0) [0] 1 1) tau [1, 1, 1, 1, 1]
        (Sys.reset (coil up) (dcResetReport (·.headD 0) [0]) [1, 1, 1, 1, 1] st ⟨[0], [0]⟩).1 2).1 ∧
      (simulate (coil up) (dcFrame id (·.headD 0) [0] 1 1) tau [1, 1, 1, 1, 1]
        (Sys.reset (coil up) (dcResetReport (·.headD 0) [0]) [1, 1, 1, 1, 1] st ⟨[0], [0]⟩).1 1).2 = .ok [0, tau * up, tau * up, up, up] ∧
      (simulate (coil up) (dcFrame id (·.headD 0) [0] 1 1) tau [1, 1, 1, 1, 1]
        (Sys.reset (coil up) (dcResetReport (·.headD 0) [0]) [1, 1, 1, 1, 1] st' ⟨[0], [0]⟩).1 1).2 = .ok [0, 0, 0, 0, up] := by
  have h2 : ¬ (il < -(tau / 1000)) := by linarith
  have h3 : ¬ (il < il - tau / 1000) := by linarith
  refine ⟨⟨0, 0, (⟨[0], [0]⟩, 0), .two (TwoQC.new tau il), ()⟩, _, rfl, rfl, ?_, ?_⟩
  · simp [simulate, Sys.reset, coil, dcFrame, FConv.setAction, FConv.convert, FConv.iSup, FConv.reset, TwoQC.setAction, TwoQC.convert, TwoQC.iSup,
      TwoQC.reset, TwoQC.new, Call.bind, pieces, piece, products, dcReport, getE, assign, divLimits, bind, Except.bind,
      pure, Except.pure, h0.ne', h2, h3]
  · simp [simulate, Sys.reset, coil, dcFrame, FConv.setAction, FConv.convert, FConv.iSup, FConv.reset, TwoQC.setAction, TwoQC.convert, TwoQC.iSup,
      TwoQC.reset, TwoQC.new, Call.bind, pieces, piece, products, dcReport, getE, assign, divLimits, bind, Except.bind,
      pure, Except.pure, h0.ne', h2, h3]

/-- C04 (AC supplies): without a given phase, a reset can give every voltage of the supply range.  The phase is drawn from `np.random`,
which `reset(seed)` does not touch: voltage supplies are no random components. -/
theorem c04_ac_supply_violated (s : Supply.AC) (hf : s.fixed = false) (ha : 0 < s.maxAmp) (u : ℝ) (hu : s.range.1 ≤ u ∧ u ≤ s.range.2) :
    ∃ draw, 0 ≤ draw ∧ draw < 1 ∧ (s.reset Supply.AC.get1 draw).2 = [u] := by
  obtain ⟨h1, h2⟩ := hu
  simp only [Supply.AC.range] at h1 h2
  have hq1 : -1 ≤ u / s.maxAmp := by rw [le_div_iff₀ ha]; linarith
  have hq2 : u / s.maxAmp ≤ 1 := by rw [div_le_one₀ ha]; exact h2
  have hs := Real.sin_arcsin hq1 hq2
  have l1 := Real.neg_pi_div_two_le_arcsin (u / s.maxAmp)
  have l2 := Real.arcsin_le_pi_div_two (u / s.maxAmp)
  have hp := Real.pi_pos
  have key : ∀ x : ℝ, Real.sin x = u / s.maxAmp → (s.reset Supply.AC.get1 (x / (2 * Real.pi))).2 = [u] := by
    intro x hx
    simp only [Supply.AC.reset, Supply.AC.get1, hf, Bool.false_eq_true, if_false, List.cons.injEq, and_true]
    rw [show 2 * Real.pi * s.f * 0 + x / (2 * Real.pi) * 2 * Real.pi = x by field_simp; ring, hx]
    field_simp
  rcases le_or_gt 0 (Real.arcsin (u / s.maxAmp)) with h | h
  · refine ⟨_, by positivity, ?_, key _ hs⟩
    rw [div_lt_one (by positivity)]
    linarith
  · refine ⟨_, ?_, ?_, key (Real.arcsin (u / s.maxAmp) + 2 * Real.pi) (by rw [Real.sin_add_two_pi, hs])⟩
    · exact div_nonneg (by linarith) (by positivity)
    · rw [div_lt_one (by positivity)]
      linarith

example : (⟨50, 0, false, 1⟩ : Supply.AC).fixed = false ∧ (⟨50, 0, false, 1⟩ : Supply.AC).range.1 ≤ 1 / 2 ∧
    (1 : ℝ) / 2 ≤ (⟨50, 0, false, 1⟩ : Supply.AC).range.2 := by
  norm_num [Supply.AC.range]

end

end GEM.Props
