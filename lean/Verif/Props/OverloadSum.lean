import Verif.Props.Overload
import Verif.Props.RegisteredEnv

/-!
# C123: the sum of the currents of a shunt motor
-/

set_option linter.unusedSectionVars false

namespace GEM.Props

open GEM GEM.Registry GEM.Assembly GEM.Wrap GEM.Refs GEM.Reward GEM.Utils GEM.Sys GEM.Conv GEM.Motor GEM.Init

noncomputable section

variable {H S P G τ : Type}

theorem forall₂_mem {α β : Type} {R : α → β → Prop} {l : List α} {l' : List β} (h : List.Forall₂ R l l') {a : α} (ha : a ∈ l) :
    ∃ b ∈ l', R a b := by
  induction h with
  | nil => simp at ha
  | @cons x y _ _ h _ ih =>
    rcases List.mem_cons.1 ha with rfl | ha
    · exact ⟨y, List.mem_cons_self, h⟩
    · obtain ⟨b, h1, h2⟩ := ih ha
      exact ⟨b, List.mem_cons_of_mem _ h1, h2⟩

/-- C123 is violated by torque control of a shunt motor, in the environment as it is registered: the torque and the sum of the currents leave
their ranges in running episodes, with each current within its limit. -/
theorem c123_shunt_sum_violated {R : Rng H} (hR : RngOk R)
    {p : Parts ℝ (DcY ℝ) (List ℝ) (List ℝ) S (CConv ℝ) P} (hu : Uses p contPower) (hs : Shaped p (DcShape 1 2)) (hi : Ideal p 60)
    (ht : TracksTwo p shuntDefault (shuntOde shuntDefault) (loadMech (25 / 10000) shuntTorque.load))
    {tq : List ℝ → ℝ} (htq : ∀ i j, tq [i, j] = dcTorque shuntDefault ![i, j])
    {ra re : ℝ} {torque : List ℝ → ℝ} {tl : Dict ℝ → Dict ℝ → Except Err ℝ} {motor : Dict ℝ × Dict ℝ}
    (h : motorValues .shuntDc ra re torque tl [] [] = .ok motor)
    {limits nominal : List ℝ} (hv : SystemValues .shuntDc motor ([], []) 60 limits nominal)
    (start : G → G × DcY ℝ) (hstart : ∀ g, (start g).2 = ⟨[230], [0, 0]⟩) (seedSystem : ℕ → G → G) (gen : RefGen τ ℝ)
    (seedRef : ℕ → τ → τ) (lower : String → String) (hlower : ∀ n ∈ stateNames .shuntDc, lower n = n) (nCb : ℕ)
    {q : Plant (St ℝ S (CConv ℝ) P × G) (List ℝ)}
    (hq : shuntTorque.wrap (bare (Registry.setup shuntTorque p (dcFrame (fun l => [l.getD 0 0 + l.getD 1 0]) tq [0, 1] 1 1)
      (dcResetReport tq [0, 1]) limits start seedSystem gen seedRef lower nCb) nominal) = .ok q)
    {new : τ → Prop} {reseeded : τ → τ → Prop}
    (hg : GeneratesIn R q.ps.names q.ps.low q.ps.high q.ps.limits q.ps.nominal shuntTorque.references τ gen new reseeded)
    (hseed : ∀ n s, reseeded s (seedRef n s)) (x : World S (CConv ℝ) P G τ) {tau : ℝ}
    (hx : x.sys.conv = (newC .four).setTau tau) (hf : new x.ref) :
    ∃ mods, wbuild ((Registry.setup shuntTorque p (dcFrame (fun l => [l.getD 0 0 + l.getD 1 0]) tq [0, 1] 1 1)
        (dcResetReport tq [0, 1]) limits start seedSystem gen seedRef lower nCb).around q) = .ok mods ∧
      q.ps.names = ["omega", "torque", "i_a", "i_e", "u", "u_sup", "i_sum"] ∧ q.ps.high = [1, 1, 1, 1, 1, 1, 1] ∧
      ∀ seed, ∃ actions : List (List ℝ), (∀ a ∈ actions, Duty 1 a) ∧ ∃ r,
        Core.Out.step (.done r) ∈ outcomes mods (Core.Env.init mods ((x.sys, x.draws), x.ref)) (.reset seed :: actions.map .step) ∧
        r.terminated = false ∧ 1.2 < entry r.obs.1 1 ∧ 1.5 < entry r.obs.1 6 := by
  have hl : limits.length = 6 := by
    rw [(two_values (Or.inr rfl) h hv).1]
    rfl
  have hl' : nominal.length = 6 := (by simpa using congrArg List.length hv.nominal : nominal.length = (stateNames .shuntDc).length)
  obtain ⟨gen₀, g1, E, E', e1, e2, e3⟩ := c133_registered (R := R) ⟨.shuntDc, .torque, .continuous⟩ c123_two.2.2
    (D := ⟨DcY ℝ, List ℝ, DcShape 1 2, fun _ => dcFrame (fun l => [l.getD 0 0 + l.getD 1 0]) tq [0, 1] 1 1, dcResetReport tq [0, 1]⟩) p limits nominal hl hl' start seedSystem lower hlower nCb gen seedRef hq hg
  obtain ⟨mods, m1, m2⟩ := c123_shunt_torque_violated hR hu hs hi ht htq h hv start hstart seedSystem g1 seedRef hseed lower hlower nCb x hx hf
  cases e1.symm.trans m1
  have hb := bare_consistent (Registry.setup shuntTorque p (dcFrame (fun l => [l.getD 0 0 + l.getD 1 0]) tq [0, 1] 1 1)
    (dcResetReport tq [0, 1]) limits start seedSystem gen seedRef lower nCb) nominal hl hl' (low_spec .shuntDc).1 rfl
  have ap := (watching_announces (class_watching ⟨.shuntDc, .torque, .continuous⟩ c123_two.2.2 hq) hb).2
  refine ⟨E', e2, ap.names, ap.high, fun seed => ?_⟩
  obtain ⟨actions, a1, a, r, r1, r2, r3, r4, -⟩ := m2 seed
  have hops : (Use.reset seed :: actions.map Use.step).map (Use.op (World S (CConv ℝ) P G τ)) = .reset seed :: actions.map .step := by
    simp [Use.op, Function.comp_def]
  have hmem : Core.Out.step (.done r) ∈ outcomes E (Core.Env.init E x) (.reset seed :: actions.map .step) := by
    rw [outcomes, hops]
    exact List.mem_map.2 ⟨_, r1, rfl⟩
  obtain ⟨b, b1, b2⟩ := forall₂_mem (e3 x _) hmem
  refine ⟨actions, a1, ?_⟩
  cases b2 with
  | done s s' o reward terminated truncated hV =>
    obtain ⟨v1, rfl⟩ := hV
    replace v1 : s.length = 6 := v1
    refine ⟨_, b1, r2, ?_, ?_⟩
    · show 1.2 < entry (s ++ classValues .shuntDc s) 1
      rwa [entry, List.getD_eq_getElem?_getD, List.getElem?_append_left (by omega), ← List.getD_eq_getElem?_getD]
    · show 1.5 < entry (s ++ [entry s 2 + entry s 3]) 6
      rw [entry, List.getD_eq_getElem?_getD, List.getElem?_append_right (by omega), v1]
      exact r4

/-- `c123_shunt_sum_violated` applies. -/
example : ∃ (τ : Type) (c : WSetup (St ℝ (DcY ℝ × ℝ) (CConv ℝ) Unit × Unit) (List ℝ) τ)
    (mods : Core.Comps ((St ℝ (DcY ℝ × ℝ) (CConv ℝ) Unit × Unit) × τ) (List ℝ) (List ℝ) (List ℝ) (List ℝ) ℝ)
    (x : (St ℝ (DcY ℝ × ℝ) (CConv ℝ) Unit × Unit) × τ), wbuild c = .ok mods ∧ c.limited = ["i_a", "i_e"] ∧
      ∀ seed, ∃ actions : List (List ℝ), (∀ a ∈ actions, Duty 1 a) ∧ ∃ r,
        Core.Out.step (.done r) ∈ outcomes mods (Core.Env.init mods x) (.reset seed :: actions.map .step) ∧
        r.terminated = false ∧ 1.2 < entry r.obs.1 1 ∧ 1.5 < entry r.obs.1 6 := by
  obtain ⟨motor, hmotor⟩ := default_made .shuntDc 1 1 (fun _ => 0) (tl := fun _ _ => .ok 1) fun _ _ => ⟨1, rfl⟩
  obtain ⟨⟨limits, nominal, hv⟩, -⟩ := c117_default hmotor 60
  obtain ⟨motion, hmo⟩ := movingTwo_tracks contPower 60 two_motions.2 .const trivial
  obtain ⟨p1, p2, p3⟩ := movingTwo_shaped contPower 60 motion
  have hl : limits.length = (stateNames .shuntDc).length := by simpa using congrArg List.length hv.limits
  have hl' : nominal.length = (stateNames .shuntDc).length := by simpa using congrArg List.length hv.nominal
  obtain ⟨q, hq, hq1⟩ := c115_system ⟨.shuntDc, .torque, .continuous⟩ c123_two.2.2 (movingTwo contPower 60 motion)
    (dcFrame (fun l => [l.getD 0 0 + l.getD 1 0]) (fun l => dcTorque shuntDefault ![l.getD 0 0, l.getD 1 0]) [0, 1] 1 1)
    (dcResetReport (fun l => dcTorque shuntDefault ![l.getD 0 0, l.getD 1 0]) [0, 1]) limits nominal hl hl'
    (fun g : Unit => (g, ⟨[230], [0, 0]⟩)) (fun _ g => g) (constGen "omega" [] 0) (fun _ s => s) id 0
  obtain ⟨τ, gen, new, reseeded, hg, ⟨s, hs⟩, hr⟩ := c124_generators demoRng (fun n => n) ⟨.shuntDc, .torque, .continuous⟩ c123_two.2.2
    q.ps.names q.ps.low q.ps.high q.ps.limits q.ps.nominal
    (by rw [hq1]; exact added_nodup (class_added shuntTorque (lower := id) fun _ _ => rfl))
    (fun n h => by rw [hq1]; exact List.mem_append_left _ h) 0
  obtain ⟨mods, h1, -, -, h2⟩ := c123_shunt_sum_violated demoRng_ok p2 p1 p3 hmo
    (tq := fun l => dcTorque shuntDefault ![l.getD 0 0, l.getD 1 0]) (fun _ _ => rfl) hmotor hv (fun g : Unit => (g, ⟨[230], [0, 0]⟩))
    (fun _ => rfl) (fun _ g => g) gen (fun _ s => s) id (fun _ _ => rfl) 0 hq hg (fun n s => hr s)
    ⟨⟨0, 0, (⟨[0], [0, 0]⟩, 0), (newC .four).setTau 1, ()⟩, (), s⟩ rfl hs
  exact ⟨τ, _, mods, _, h1, rfl, h2⟩

end

end GEM.Props
