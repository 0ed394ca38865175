import Verif.Props.Registry
import Verif.Props.Limits

/-!
# Nominal values, limits and the default references (C117)
-/

set_option linter.unusedSectionVars false

namespace GEM.Props

noncomputable section

open GEM GEM.Sys GEM.Registry GEM.Limits GEM.Init GEM.Utils GEM.Refs GEM.Reward GEM.Assembly

/-- value of an entry, 0 if there is none: for the motor classes an absent entry and 0 are the same -/
def entryOf (d : Dict ℝ) (k : String) : ℝ := (lookup d k).getD 0

/-- The limits and nominal values that a user gives, completed by the defaults of the class, fit together. -/
def Ordered (t : MotorType) (uL uN : Dict ℝ) : Prop :=
  ∀ k, Nominal (((lookup uL k).or (lookup (defLimits t) k)).getD 0) (((lookup uN k).or (lookup (defNominal t) k)).getD 0)

theorem base_ordered (omega : ℝ) (l n a nd : Dict ℝ) (hl : (l.map Prod.fst).Nodup) (ha : (a.map Prod.fst).Nodup)
    (ho : ∀ k, Nominal (entryOf l k) (entryOf n k))
    (hnd : ∀ k v, lookup nd k = some v → k ≠ "omega" ∧ ∃ w, lookup a k = some w ∧ Nominal w v) (k : String) :
    Nominal (entryOf (updateBase omega l n a nd).1 k) (entryOf (updateBase omega l n a nd).2 k) := by
  have h := ho k
  by_cases hn : Missing n k
  · have hm : Missing l k := by
      unfold Missing at hn ⊢
      rcases h with h | h
      · exact h.symm.trans hn
      · exact absurd hn h.1.ne'
    have e2 := base_nominal omega l n a nd hl k
    rw [if_pos hn] at e2
    cases hv : lookup (updateBase omega l n a nd).1 k with
    | none =>
      rw [hv] at e2
      left
      unfold entryOf
      rw [e2, hv]
      exact hn
    | some z =>
      rw [hv] at e2
      have e2 : lookup (updateBase omega l n a nd).2 k = some ((lookup nd k).getD z) := by rw [e2]; rfl
      unfold entryOf
      rw [hv, e2, Option.getD_some, Option.getD_some]
      cases hd : lookup nd k with
      | none => exact Or.inl rfl
      | some v =>
        obtain ⟨h1, w, h2, h3⟩ := hnd k v hd
        have e1 := base_lookup omega l n a nd ha k
        rw [if_pos hm, if_neg h1, h2, hv] at e1
        rw [Option.some_or, Option.some.injEq] at e1
        rw [e1]
        exact h3
  · have hm : ¬ Missing l k := by
      intro hm
      rcases h with h | h
      · exact hn (h.trans hm)
      · have hm : entryOf l k = 0 := hm
        linarith [h.1, h.2]
    have e1 := base_lookup omega l n a nd ha k
    have e2 := base_nominal omega l n a nd hl k
    rw [if_neg hm] at e1
    rw [if_neg hn] at e2
    unfold entryOf
    rw [e1, e2]
    exact h

theorem base_isSome (omega : ℝ) (l n a nd : Dict ℝ) (ha : (a.map Prod.fst).Nodup) (k : String)
    (h : (lookup l k).isSome ∨ (lookup a k).isSome) : (lookup (updateBase omega l n a nd).1 k).isSome := by
  rw [base_lookup omega l n a nd ha k]
  split_ifs with h1 h2
  · rfl
  · rw [Option.isSome_or, Bool.or_eq_true]
    exact h.symm
  · unfold Missing at h1
    cases e : lookup l k with
    | none => simp [e] at h1
    | some x => rfl

theorem nil_merge {d l : Dict ℝ} {u : Dict ℝ} (h : mergeUser d u = .ok l) (k : String) :
    entryOf l k = ((lookup u k).or (lookup d k)).getD 0 := by
  unfold entryOf
  rw [(mergeUser_ok _ _ _ h).2]

theorem merge_isSome {d l : Dict ℝ} {u : Dict ℝ} (h : mergeUser d u = .ok l) {k : String} (hk : k ∈ d.map Prod.fst) :
    (lookup l k).isSome := by
  rw [(mergeUser_ok _ _ _ h).2, Option.isSome_or, Bool.or_eq_true]
  exact Or.inr ((lookup_isSome _ _).2 hk)

/-- entries of a DC motor -/
theorem dc_values {t : MotorType} {l n a : Dict ℝ} {uL uN : Dict ℝ} (hl : mergeUser (defLimits t) uL = .ok l)
    (hn : mergeUser (defNominal t) uN = .ok n) (hd : ((defLimits t).map Prod.fst).Nodup) (hul : (uL.map Prod.fst).Nodup)
    (ha : (a.map Prod.fst).Nodup) (ho : Ordered t uL uN) (omega : ℝ) {k : String} (hk : k ∈ (defLimits t).map Prod.fst) :
    ∃ x y, lookup (updateBase omega l n a []).1 k = some x ∧ lookup (updateBase omega l n a []).2 k = some y ∧ Nominal x y := by
  have hln := merge_nodup _ _ _ hd hul hl
  have h := base_ordered omega l n a [] hln ha (fun k => by rw [nil_merge hl, nil_merge hn]; exact ho k) (by simp [lookup_nil]) k
  have h1 := base_isSome omega l n a [] ha k (Or.inl (merge_isSome hl hk))
  obtain ⟨x, hx⟩ := Option.isSome_iff_exists.1 h1
  obtain ⟨y, hy, -⟩ := base_complete omega l n a hln k x hx
  refine ⟨x, y, hx, hy, ?_⟩
  simpa [entryOf, hx, hy] using h

/-- entries of a three phase motor -/
theorem ac_values {dL dN : Dict ℝ} {ios : List (String × String)} {r : ℝ} {tl : Dict ℝ → Dict ℝ → Except Err ℝ} {uL uN : Dict ℝ}
    {res : Dict ℝ × Dict ℝ} (hdl : (dL.map Prod.fst).Nodup) (hul : (uL.map Prod.fst).Nodup)
    (h : acLimits dL dN ios r tl uL uN = .ok res)
    (ho : ∀ k, Nominal (((lookup uL k).or (lookup dL k)).getD 0) (((lookup uN k).or (lookup dN k)).getD 0))
    (hi : ((lookup uL "i").or (lookup dL "i")).getD 0 ≠ 0) (hdis : ∀ p ∈ ios, ∀ q ∈ ios, p.1 ≠ q.2)
    (hom : ∀ q ∈ ios, q.1 ≠ "omega" ∧ q.2 ≠ "omega") {k : String}
    (hk : k ∈ dL.map Prod.fst ∨ k ∈ ios.map Prod.fst ∨ k ∈ ios.map Prod.snd) :
    ∃ x y, lookup res.1 k = some x ∧ lookup res.2 k = some y ∧ Nominal x y := by
  obtain ⟨l, n, omega, a, t, hl, hn, -, ha, -, rfl⟩ := acLimits_ok _ _ _ _ _ _ _ _ h
  have hln := merge_nodup _ _ _ hdl hul hl
  have ho' : ∀ k, Nominal (entryOf l k) (entryOf n k) := fun k => by rw [nil_merge hl, nil_merge hn]; exact ho k
  unfold ioAgenda at ha
  obtain ⟨ul, e1, ha⟩ := bind_ok ha
  obtain ⟨un, e2, ha⟩ := bind_ok ha
  have some_of : ∀ (d : Dict ℝ) (s : String) (v : ℝ), Init.get d s = .ok v → lookup d s = some v := by
    intro d s v hv
    unfold Init.get at hv
    cases hq : lookup d s with
    | none => rw [hq] at hv; simp at hv
    | some w => rw [hq] at hv; simpa using hv
  have e1 := some_of _ _ _ e1
  have e2 := some_of _ _ _ e2
  have hu : Nominal ul un := by
    have := ho' "u"
    simpa [entryOf, e1, e2] using this
  have hil : entryOf l "i" ≠ 0 := by rw [nil_merge hl]; exact hi
  have hin : entryOf n "i" ≠ 0 := by
    intro hz
    rcases ho' "i" with h | h
    · exact hil (h.symm.trans hz)
    · exact h.1.ne' hz
  obtain ⟨x, hx⟩ : ∃ x, lookup l "i" = some x := by
    cases e : lookup l "i" with
    | none => simp [entryOf, e] at hil
    | some x => exact ⟨x, rfl⟩
  obtain ⟨y, hy⟩ : ∃ y, lookup n "i" = some y := by
    cases e : lookup n "i" with
    | none => simp [entryOf, e] at hin
    | some x => exact ⟨x, rfl⟩
  have hx0 : x ≠ 0 := by simpa [entryOf, hx] using hil
  have hy0 : y ≠ 0 := by simpa [entryOf, hy] using hin
  have hxy : Nominal x y := by
    have := ho' "i"
    simpa [entryOf, hx, hy] using this
  obtain ⟨b, hb, b1, -, b3, b4⟩ := ioLoop_ok l n r (1 / 2 * ul) (1 / 2 * un) x y hx hx0 hy hy0 ios ([], []) hdis (by simp) (by simp)
  rw [hb, Except.ok.injEq] at ha
  subst ha
  have hnd : ∀ k v, lookup b.2 k = some v → k ≠ "omega" ∧ ∃ w, lookup b.1 k = some w ∧ Nominal w v := by
    intro k v hv
    rw [b4] at hv
    rw [b3]
    split_ifs at hv ⊢ with h1 h2
    · rw [Option.some.injEq] at hv
      subst hv
      obtain ⟨q, hq, rfl⟩ := List.mem_map.1 h1
      exact ⟨(hom q hq).2, x, rfl, hxy⟩
    · rw [Option.some.injEq] at hv
      subst hv
      obtain ⟨q, hq, rfl⟩ := List.mem_map.1 h2
      refine ⟨(hom q hq).1, _, rfl, ?_⟩
      rcases hu with rfl | hu
      · exact Or.inl rfl
      · exact Or.inr ⟨by linarith [hu.1], by linarith [hu.2]⟩
    · simp [lookup_nil] at hv
  have h1 := base_ordered omega l n b.1 b.2 hln b1 ho' hnd
  have hln1 := base_nodup omega l n b.1 b.2 hln
  have ht : ((([("torque", t)] : Dict ℝ).map Prod.fst)).Nodup := by simp
  have h2 := base_ordered omega (updateBase omega l n b.1 b.2).1 (updateBase omega l n b.1 b.2).2 [("torque", t)] [] hln1 ht h1
    (by simp [lookup_nil]) k
  have s1 : (lookup (updateBase omega l n b.1 b.2).1 k).isSome := by
    refine base_isSome omega l n b.1 b.2 b1 k ?_
    rcases hk with hk | hk | hk
    · exact Or.inl (merge_isSome hl hk)
    · right
      rw [b3]
      split_ifs <;> rfl
    · right
      rw [b3, if_pos hk]
      rfl
  have s2 := base_isSome omega (updateBase omega l n b.1 b.2).1 (updateBase omega l n b.1 b.2).2 [("torque", t)] [] ht k (Or.inl s1)
  obtain ⟨x', hx'⟩ := Option.isSome_iff_exists.1 s2
  obtain ⟨y', hy', -⟩ := base_complete omega _ _ _ hln1 k x' hx'
  refine ⟨x', y', hx', hy', ?_⟩
  simpa [entryOf, hx', hy'] using h2

theorem ac_case {t : MotorType} {ra : ℝ} {tl : Dict ℝ → Dict ℝ → Except Err ℝ} {uL uN : Dict ℝ} {res : Dict ℝ × Dict ℝ}
    (h : acLimits (defLimits t) (defNominal t) (acIos t) ra tl uL uN = .ok res) (hul : (uL.map Prod.fst).Nodup) (ho : Ordered t uL uN)
    (hi : ((lookup uL "i").or (lookup (defLimits t) "i")).getD 0 ≠ 0) (hd : ((defLimits t).map Prod.fst).Nodup)
    (hio : ∀ p ∈ acIos t, (∀ q ∈ acIos t, p.1 ≠ q.2) ∧ p.1 ≠ "omega" ∧ p.2 ≠ "omega") {k : String}
    (hk : k ∈ (defLimits t).map Prod.fst ++ (acIos t).map Prod.fst ++ (acIos t).map Prod.snd) :
    ∃ x y, lookup res.1 k = some x ∧ lookup res.2 k = some y ∧ Nominal x y := by
  simp only [List.mem_append] at hk
  exact ac_values hd hul h ho hi (fun p hp => (hio p hp).1) (fun p hp => (hio p hp).2) (by tauto)

/-- names of the default limits -/
def limitKeys : MotorType → List String
  | .permExDc => ["omega", "torque", "i", "u"]
  | .extExDc | .seriesDc | .shuntDc => ["omega", "torque", "i", "i_a", "i_e", "u", "u_a", "u_e"]
  | .eesm => ["omega", "torque", "i", "i_e", "epsilon", "u"]
  | .dfim | .scim | .pmsm => ["omega", "torque", "i", "epsilon", "u"]
  | .synRm => ["i", "torque", "omega", "epsilon", "u"]

theorem limitKeys_eq (t : MotorType) : (defLimits t).map Prod.fst = limitKeys t := by
  cases t <;> rfl

theorem state_keys {t : MotorType} {k : String} (hk : k ∈ stateNames t) (hs : k ≠ "u_sup") :
    k ∈ (defLimits t).map Prod.fst ++ (acIos t).map Prod.fst ++ (acIos t).map Prod.snd := by
  rw [limitKeys_eq]
  have : ∀ m ∈ motors, ∀ k ∈ stateNames m.type, k ≠ "u_sup" →
      k ∈ limitKeys m.type ++ (acIos m.type).map Prod.fst ++ (acIos m.type).map Prod.snd := by decide +kernel
  exact this ⟨t, .speed, .finite⟩ (mem_motors _) k hk hs

/-- Limits and nominal values of the motors fit together if those given by the user and the defaults do. -/
theorem motor_values {t : MotorType} {ra re : ℝ} {torque : List ℝ → ℝ} {tl : Dict ℝ → Dict ℝ → Except Err ℝ} {uL uN : Dict ℝ}
    {res : Dict ℝ × Dict ℝ} (h : motorValues t ra re torque tl uL uN = .ok res) (hul : (uL.map Prod.fst).Nodup) (ho : Ordered t uL uN)
    (hi : ((lookup uL "i").or (lookup (defLimits t) "i")).getD 0 ≠ 0) {k : String} (hk : k ∈ stateNames t) (hs : k ≠ "u_sup") :
    ∃ x y, lookup res.1 k = some x ∧ lookup res.2 k = some y ∧ Nominal x y := by
  cases t
  case extExDc =>
    simp only [motorValues, extExLimits] at h
    obtain ⟨l, hl, h⟩ := bind_ok h
    obtain ⟨n, hn, h⟩ := bind_ok h
    obtain ⟨ia, _, h⟩ := bind_ok h
    obtain ⟨ie, _, h⟩ := bind_ok h
    obtain ⟨is, -, rfl⟩ := updateDc_ok _ _ _ _ _ _ _ h
    exact dc_values (t := .extExDc) hl hn (by simp [defLimits, dcDefLimits]) hul (set_nodup _ _ _ (by simp)) ho _ (by simpa [acIos] using state_keys hk hs)
  case shuntDc =>
    simp only [motorValues, shuntLimits] at h
    obtain ⟨l, hl, h⟩ := bind_ok h
    obtain ⟨n, hn, h⟩ := bind_ok h
    obtain ⟨ia, _, h⟩ := bind_ok h
    obtain ⟨ie, _, h⟩ := bind_ok h
    obtain ⟨is, -, rfl⟩ := updateDc_ok _ _ _ _ _ _ _ h
    exact dc_values (t := .shuntDc) hl hn (by simp [defLimits, dcDefLimits]) hul (set_nodup _ _ _ (by simp)) ho _ (by simpa [acIos] using state_keys hk hs)
  case seriesDc =>
    simp only [motorValues, seriesLimits] at h
    obtain ⟨l, hl, h⟩ := bind_ok h
    obtain ⟨n, hn, h⟩ := bind_ok h
    obtain ⟨u, _, h⟩ := bind_ok h
    obtain ⟨is, -, rfl⟩ := updateDc_ok _ _ _ _ _ _ _ h
    exact dc_values (t := .seriesDc) hl hn (by simp [defLimits, dcDefLimits]) hul (set_nodup _ _ _ (by simp)) ho _ (by simpa [acIos] using state_keys hk hs)
  case permExDc =>
    simp only [motorValues, permExLimits] at h
    obtain ⟨l, hl, h⟩ := bind_ok h
    obtain ⟨n, hn, h⟩ := bind_ok h
    obtain ⟨u, _, h⟩ := bind_ok h
    obtain ⟨is, -, rfl⟩ := updateDc_ok _ _ _ _ _ _ _ h
    exact dc_values (t := .permExDc) hl hn (by simp [defLimits]) hul (set_nodup _ _ _ (by simp)) ho _ (by simpa [acIos] using state_keys hk hs)
  case pmsm =>
    exact ac_case h hul ho hi (by simp [defLimits, pmsmDefLimits]) (by simp [acIos, syncIos]) (state_keys hk hs)
  case synRm =>
    exact ac_case h hul ho hi (by simp [defLimits]) (by simp [acIos, syncIos]) (state_keys hk hs)
  case eesm =>
    exact ac_case h hul ho hi (by simp [defLimits]) (by simp [acIos, eesmIos, syncIos]) (state_keys hk hs)
  case scim =>
    exact ac_case h hul ho hi (by simp [defLimits]) (by simp [acIos, imIos]) (state_keys hk hs)
  case dfim =>
    exact ac_case h hul ho hi (by simp [defLimits]) (by simp [acIos, imIos]) (state_keys hk hs)

/-- `limits` and `nominal_state` of a system: its motor has these limits and nominal values, its load these. -/
structure SystemValues (t : MotorType) (motor load : Dict ℝ × Dict ℝ) (supply : ℝ) (limits nominal : List ℝ) : Prop where
  limits : limits.map some = (stateNames t).map (systemValue motor.1 load.1 supply)
  nominal : nominal.map some = (stateNames t).map (systemValue motor.2 load.2 supply)

theorem entry_of_map {names : List String} {f : String → Option ℝ} {l : List ℝ} (h : l.map some = names.map f) {k : String}
    (hk : k ∈ names) : f k = some (entry l (names.idxOf k)) := by
  have hi := List.idxOf_lt_length_of_mem hk
  have hl : l.length = names.length := by simpa using congrArg List.length h
  have := congrArg (fun q => q[names.idxOf k]?) h
  simp only [List.getElem?_map, List.getElem?_eq_getElem hi, List.getElem?_eq_getElem (hl ▸ hi), Option.map_some, Option.some.injEq,
    List.getElem_idxOf] at this
  rw [← this, entry, List.getD_eq_getElem?_getD, List.getElem?_eq_getElem (hl ▸ hi), Option.getD_some]

theorem map_exists (names : List String) (f : String → Option ℝ) (h : ∀ k ∈ names, (f k).isSome) :
    ∃ l : List ℝ, l.map some = names.map f := by
  refine ⟨names.map fun k => (f k).getD 0, ?_⟩
  rw [List.map_map]
  refine List.map_congr_left fun k hk => ?_
  obtain ⟨x, hx⟩ := Option.isSome_iff_exists.1 (h k hk)
  simp [hx]

/-- C117: limits and nominal values of a system fit together, so that references with the default margin are in the state space.

For every motor whose given limits and nominal values, completed by the defaults of its class, fit together; every load whose limits
are not smaller than the nominal values of the motor; every supply.  Every state then has a (finite) limit and a nominal value, which
is the limit or lies between 0 and it.  Missing: other given values and loads with smaller limits, see below. -/
theorem c117_nominal_partial {t : MotorType} {ra re : ℝ} {torque : List ℝ → ℝ} {tl : Dict ℝ → Dict ℝ → Except Err ℝ} {uL uN : Dict ℝ}
    {motor : Dict ℝ × Dict ℝ} (h : motorValues t ra re torque tl uL uN = .ok motor) (hul : (uL.map Prod.fst).Nodup)
    (ho : Ordered t uL uN) (hi : ((lookup uL "i").or (lookup (defLimits t) "i")).getD 0 ≠ 0) (load : Dict ℝ)
    (hload : ∀ k x y, lookup load k = some x → lookup motor.2 k = some y → y ≤ x) (supply : ℝ) :
    (∃ limits nominal, SystemValues t motor (load, []) supply limits nominal) ∧
    ∀ limits nominal, SystemValues t motor (load, []) supply limits nominal → NominalOk t limits nominal (stateNames t) := by
  have key : ∀ k ∈ stateNames t, ∃ x y, systemValue motor.1 load supply k = some x ∧ systemValue motor.2 [] supply k = some y ∧
      Nominal x y := by
    intro k hk
    by_cases hs : k = "u_sup"
    · subst hs
      exact ⟨supply, supply, by simp [systemValue], by simp [systemValue], Or.inl rfl⟩
    · obtain ⟨x, y, h1, h2, h3⟩ := motor_values h hul ho hi hk hs
      have e2 : systemValue motor.2 [] supply k = some y := by simp [systemValue, hs, h2, lookup_nil, smaller]
      cases hq : lookup load k with
      | none => exact ⟨x, y, by simp [systemValue, hs, h1, hq, smaller], e2, h3⟩
      | some z =>
        have hz := hload k z y hq h2
        refine ⟨min x z, y, by simp [systemValue, hs, h1, hq, smaller], e2, ?_⟩
        rcases h3 with rfl | ⟨h4, h5⟩
        · exact Or.inl (min_eq_left hz).symm
        · exact Or.inr ⟨h4, le_min h5 hz⟩
  refine ⟨?_, fun limits nominal hv k hk => ?_⟩
  · obtain ⟨limits, h1⟩ := map_exists (stateNames t) (systemValue motor.1 load supply) (fun k hk => by
      obtain ⟨x, y, h1, -⟩ := key k hk
      simp [h1])
    obtain ⟨nominal, h2⟩ := map_exists (stateNames t) (systemValue motor.2 [] supply) (fun k hk => by
      obtain ⟨x, y, -, h1, -⟩ := key k hk
      simp [h1])
    exact ⟨limits, nominal, h1, h2⟩
  · obtain ⟨x, y, h1, h2, h3⟩ := key k hk
    have e1 := entry_of_map hv.limits hk
    have e2 := entry_of_map hv.nominal hk
    have e1 : x = entry limits ((stateNames t).idxOf k) := by rw [← Option.some.injEq, ← h1, ← e1]
    have e2 : y = entry nominal ((stateNames t).idxOf k) := by rw [← Option.some.injEq, ← h2, ← e2]
    rw [← e1, ← e2]
    exact h3

theorem pairs_ordered {L N : Dict ℝ} (h : List.Forall₂ (fun p q => p.1 = q.1 ∧ Nominal p.2 q.2) L N) (hd : (L.map Prod.fst).Nodup)
    (k : String) : Nominal ((lookup L k).getD 0) ((lookup N k).getD 0) := by
  induction h with
  | nil => exact Or.inl rfl
  | @cons p q L N hpq h ih =>
    rw [List.map_cons, List.nodup_cons] at hd
    have hm : L.map Prod.fst = N.map Prod.fst := by
      clear ih hd
      induction h with
      | nil => rfl
      | cons h _ ih => simp [h.1, ih]
    rw [lookup_cons p L k hd.1, lookup_cons q N k (by rw [← hm, ← hpq.1]; exact hd.1), ← hpq.1]
    split_ifs
    · exact hpq.2
    · exact ih hd.2

/-- The default limits and nominal values of the motor classes fit together. -/
theorem default_ordered (t : MotorType) : Ordered t [] [] := by
  intro k
  simp only [lookup_nil, Option.none_or]
  have hp := Real.pi_pos
  cases t
  all_goals
    refine pairs_ordered ?_ ?_ k
    · simp only [defLimits, defNominal, dcDefLimits, dcDefNominal, pmsmDefLimits, pmsmDefNominal, List.forall₂_cons, true_and,
        List.Forall₂.nil, and_true, Nominal]
      refine ⟨?_, ?_⟩ <;> norm_num <;> (try constructor) <;> linarith
    · simp [defLimits, dcDefLimits, pmsmDefLimits]

theorem default_current (t : MotorType) : ((lookup ([] : Dict ℝ) "i").or (lookup (defLimits t) "i")).getD 0 ≠ 0 := by
  cases t <;> simp [lookup_nil, defLimits, dcDefLimits, pmsmDefLimits, Limits.lookup_cons]

/-- C117 (default motors): the limits and nominal values of every system with a default motor and a load without limits of its own, as
all default loads, fit together. -/
theorem c117_default {t : MotorType} {ra re : ℝ} {torque : List ℝ → ℝ} {tl : Dict ℝ → Dict ℝ → Except Err ℝ}
    {motor : Dict ℝ × Dict ℝ} (h : motorValues t ra re torque tl [] [] = .ok motor) (supply : ℝ) :
    (∃ limits nominal, SystemValues t motor ([], []) supply limits nominal) ∧
    ∀ limits nominal, SystemValues t motor ([], []) supply limits nominal → NominalOk t limits nominal (stateNames t) :=
  c117_nominal_partial h (by simp) (default_ordered t) (default_current t) [] (by simp [lookup_nil]) supply

/-- Default motors can be made: always those for DC, the others if the torque limit can be computed. -/
theorem default_made (t : MotorType) (ra re : ℝ) (torque : List ℝ → ℝ) {tl : Dict ℝ → Dict ℝ → Except Err ℝ}
    (htl : ∀ l n, ∃ x, tl l n = .ok x) : ∃ motor, motorValues t ra re torque tl [] [] = .ok motor := by
  have hm : ∀ d : Dict ℝ, mergeUser d [] = .ok d := fun d => by simp [mergeUser, dictUpdate]
  have ac : ∀ t, (∃ u, lookup (defLimits t) "u" = some u) → (∃ u, lookup (defNominal t) "u" = some u) →
      (∃ x, lookup (defLimits t) "i" = some x ∧ x ≠ 0) → (∃ x, lookup (defNominal t) "i" = some x ∧ x ≠ 0) →
      (∃ u, lookup (defLimits t) "omega" = some u) → (∀ p ∈ acIos t, ∀ q ∈ acIos t, p.1 ≠ q.2) →
      ∃ motor, acLimits (defLimits t) (defNominal t) (acIos t) ra tl [] [] = .ok motor := by
    rintro t ⟨u, h1⟩ ⟨u', h2⟩ ⟨x, h3, h3'⟩ ⟨y, h4, h4'⟩ ⟨w, h5⟩ h6
    obtain ⟨b, hb, -⟩ := ioLoop_ok _ _ ra (1 / 2 * u) (1 / 2 * u') x y h3 h3' h4 h4' (acIos t) ([], []) h6 (by simp) (by simp)
    obtain ⟨z, hz⟩ := htl (updateBase w (defLimits t) (defNominal t) b.1 b.2).1 (updateBase w (defLimits t) (defNominal t) b.1 b.2).2
    exact ⟨_, by simp only [acLimits, hm, Init.get, h5, ioAgenda, h1, h2, hb, updateThreePhase, hz, bind, Except.bind]; rfl⟩
  have d1 : lookup (dcDefLimits : Dict ℝ) "i" = some 210 := by simp [dcDefLimits, Limits.lookup_cons, lookup_nil]
  have d2 : lookup (dcDefLimits : Dict ℝ) "u" = some 60 := by simp [dcDefLimits, Limits.lookup_cons, lookup_nil]
  have d3 : lookup (dcDefLimits : Dict ℝ) "i_a" = some 210 := by simp [dcDefLimits, Limits.lookup_cons, lookup_nil]
  have d4 : lookup (dcDefLimits : Dict ℝ) "i_e" = some 210 := by simp [dcDefLimits, Limits.lookup_cons, lookup_nil]
  have d5 : lookup ([("omega", 400), ("torque", 38), ("i", 210), ("u", 60)] : Dict ℝ) "i" = some 210 := by simp [Limits.lookup_cons, lookup_nil]
  have d6 : lookup ([("omega", 400), ("torque", 38), ("i", 210), ("u", 60)] : Dict ℝ) "u" = some 60 := by simp [Limits.lookup_cons, lookup_nil]
  have h0 : (210 : ℝ) ≠ 0 := by norm_num
  cases t
  case extExDc =>
    exact ⟨_, by
      simp only [motorValues, extExLimits, hm, currentOrU, currentOr, updateDc, Init.get, d1, d3, d4, h0, if_false, List.mapM_cons,
        List.mapM_nil, bind, Except.bind, pure, Except.pure]
      rfl⟩
  case shuntDc =>
    exact ⟨_, by
      simp only [motorValues, shuntLimits, hm, currentOrU, currentOr, updateDc, Init.get, d1, d3, d4, h0, if_false, List.mapM_cons,
        List.mapM_nil, bind, Except.bind, pure, Except.pure]
      rfl⟩
  case seriesDc =>
    exact ⟨_, by
      simp only [motorValues, seriesLimits, hm, updateDc, Init.get, d1, d2, List.mapM_cons, List.mapM_nil, bind, Except.bind, pure,
        Except.pure]
      rfl⟩
  case permExDc =>
    exact ⟨_, by
      simp only [motorValues, permExLimits, hm, updateDc, Init.get, d5, d6, List.mapM_cons, List.mapM_nil, bind, Except.bind, pure,
        Except.pure]
      rfl⟩
  all_goals
    refine ac _ ?_ ?_ ?_ ?_ ?_ ?_
    case _ => simp [defLimits, pmsmDefLimits, Limits.lookup_cons, lookup_nil]
    case _ => simp [defNominal, pmsmDefNominal, Limits.lookup_cons, lookup_nil]
    case _ => simp [defLimits, pmsmDefLimits, Limits.lookup_cons, lookup_nil]
    case _ => simp [defNominal, pmsmDefNominal, Limits.lookup_cons, lookup_nil]
    case _ => simp [defLimits, pmsmDefLimits, Limits.lookup_cons, lookup_nil]
    case _ => simp [acIos, syncIos, eesmIos, imIos]

example (t : MotorType) (ra re supply : ℝ) (torque : List ℝ → ℝ) (x : ℝ) : ∃ motor limits nominal,
    motorValues t ra re torque (fun _ _ => .ok x) [] [] = .ok motor ∧ SystemValues t motor ([], []) supply limits nominal ∧
      NominalOk t limits nominal (stateNames t) := by
  obtain ⟨motor, h⟩ := default_made t ra re torque (tl := fun _ _ => .ok x) fun _ _ => ⟨x, rfl⟩
  obtain ⟨⟨limits, nominal, h1⟩, h2⟩ := c117_default h supply
  exact ⟨motor, limits, nominal, h, h1, h2 _ _ h1⟩

variable {H G τ S C P A : Type}

/-- C117 (environments): C115 with the limits and nominal values that the registered environments have by default. -/
theorem c117_environment {R : Rng H} (hR : RngOk R) (m : Motor) {name : String} {d : Defaults} (hd : make m.envId = some (name, d))
    {D : Drive} (hD : Drives d.motor D) {pw : Power A C} {conv : C} {space : A → Prop}
    (hpw : Powered d.tau d.action d.converter A C pw conv space) (p : Parts ℝ D.Y D.U A S C P) (hu : Uses p pw) (hs : Shaped p D.shape)
    {ra re : ℝ} {torque : List ℝ → ℝ} {tl : Dict ℝ → Dict ℝ → Except Err ℝ} {motor : Dict ℝ × Dict ℝ}
    (hmotor : motorValues d.motor ra re torque tl [] [] = .ok motor) {supply : ℝ} {limits nominal : List ℝ}
    (hv : SystemValues d.motor motor ([], []) supply limits nominal)
    (start : G → G × D.Y) (hstart : ∀ g, D.shape (start g).2) (seedSystem : ℕ → G → G)
    {gen : RefGen τ ℝ} {new : τ → Prop} {reseeded : τ → τ → Prop} (hg : Generates R d.motor limits nominal d.references τ gen new reseeded)
    (seedRef : ℕ → τ → τ) (hseed : ∀ n s, reseeded s (seedRef n s)) (lower : String → String)
    (hlower : ∀ n ∈ stateNames d.motor, lower n = n) (nCb : ℕ) (x : World S C P G τ) (hx : x.sys.conv = conv) (hf : new x.ref)
    (hk : x.sys.k = 0) :
    ∃ mods, build (Registry.setup d p (D.frame A) D.rep limits start seedSystem gen seedRef lower nCb) = .ok mods ∧
      ∀ ops : List (Core.Op (World S C P G τ) A), (∀ op ∈ ops, Proper space op) →
        Conforms (Registry.setup d p (D.frame A) D.rep limits start seedSystem gen seedRef lower nCb) (-1) 0 (-10) true
          (Core.run mods (Core.Env.init mods x) ops).2 := by
  refine c115_environment hR m hd hD hpw p hu hs limits nominal (by simpa using congrArg List.length hv.limits) (fun n hn => ?_) start
    hstart seedSystem hg seedRef hseed lower hlower nCb x hx hf hk
  obtain ⟨name', d', hd', -, hfit⟩ := entry_of m
  rw [hd, Option.some.injEq, Prod.mk.injEq] at hd'
  obtain ⟨rfl, rfl⟩ := hd'
  refine (c117_default hmotor supply).2 _ _ hv n (hfit.known n ?_)
  simp only [List.mem_append]
  tauto

/-! ## Where limits and nominal values do not fit together -/

theorem motor_keeps {t : MotorType} {ra re : ℝ} {torque : List ℝ → ℝ} {tl : Dict ℝ → Dict ℝ → Except Err ℝ} {uL uN : Dict ℝ}
    {res : Dict ℝ × Dict ℝ} (h : motorValues t ra re torque tl uL uN = .ok res) (hul : (uL.map Prod.fst).Nodup) {k : String} {x : ℝ}
    (hx : x ≠ 0) : ((lookup uL k).or (lookup (defLimits t) k) = some x → lookup res.1 k = some x) ∧
      ((lookup uN k).or (lookup (defNominal t) k) = some x → lookup res.2 k = some x) := by
  have hd : ((defLimits t).map Prod.fst).Nodup := by
    rw [limitKeys_eq]
    have : ∀ m ∈ motors, (limitKeys m.type).Nodup := by decide +kernel
    exact this ⟨t, .speed, .finite⟩ (mem_motors _)
  have dc : ∀ {omega : ℝ} {l n a : Dict ℝ}, mergeUser (defLimits t) uL = .ok l → mergeUser (defNominal t) uN = .ok n →
      (a.map Prod.fst).Nodup → res = updateBase omega l n a [] →
      ((lookup uL k).or (lookup (defLimits t) k) = some x → lookup res.1 k = some x) ∧
        ((lookup uN k).or (lookup (defNominal t) k) = some x → lookup res.2 k = some x) := by
    rintro omega l n a hl hn ha rfl
    exact ⟨fun hk => base_keeps _ _ _ _ _ _ _ ha (by rw [(mergeUser_ok _ _ _ hl).2, hk]) hx,
      fun hk => base_keeps_nominal _ _ _ _ _ _ _ (merge_nodup _ _ _ hd hul hl) (by rw [(mergeUser_ok _ _ _ hn).2, hk]) hx⟩
  have ac : acLimits (defLimits t) (defNominal t) (acIos t) ra tl uL uN = .ok res →
      ((lookup uL k).or (lookup (defLimits t) k) = some x → lookup res.1 k = some x) ∧
        ((lookup uN k).or (lookup (defNominal t) k) = some x → lookup res.2 k = some x) := by
    intro h
    obtain ⟨l, n, omega, a, q, hl, hn, -, ha, -, rfl⟩ := acLimits_ok _ _ _ _ _ _ _ _ h
    have hln := merge_nodup _ _ _ hd hul hl
    have han : (a.1.map Prod.fst).Nodup := by
      unfold ioAgenda at ha
      obtain ⟨_, _, ha⟩ := bind_ok ha
      obtain ⟨_, _, ha⟩ := bind_ok ha
      exact ioLoop_nodup _ _ _ _ _ _ _ _ ha (by simp)
    refine ⟨fun hk => base_keeps _ _ _ _ _ _ _ (by simp) (base_keeps _ _ _ _ _ _ _ han ?_ hx) hx,
      fun hk => base_keeps_nominal _ _ _ _ _ _ _ (base_nodup _ _ _ _ _ hln) (base_keeps_nominal _ _ _ _ _ _ _ hln ?_ hx) hx⟩
    · rw [(mergeUser_ok _ _ _ hl).2, hk]
    · rw [(mergeUser_ok _ _ _ hn).2, hk]
  cases t
  case extExDc =>
    simp only [motorValues, extExLimits] at h
    obtain ⟨l, hl, h⟩ := bind_ok h
    obtain ⟨n, hn, h⟩ := bind_ok h
    obtain ⟨ia, _, h⟩ := bind_ok h
    obtain ⟨ie, _, h⟩ := bind_ok h
    obtain ⟨is, -, e⟩ := updateDc_ok _ _ _ _ _ _ _ h
    exact dc hl hn (set_nodup _ _ _ (by simp)) e
  case shuntDc =>
    simp only [motorValues, shuntLimits] at h
    obtain ⟨l, hl, h⟩ := bind_ok h
    obtain ⟨n, hn, h⟩ := bind_ok h
    obtain ⟨ia, _, h⟩ := bind_ok h
    obtain ⟨ie, _, h⟩ := bind_ok h
    obtain ⟨is, -, e⟩ := updateDc_ok _ _ _ _ _ _ _ h
    exact dc hl hn (set_nodup _ _ _ (by simp)) e
  case seriesDc =>
    simp only [motorValues, seriesLimits] at h
    obtain ⟨l, hl, h⟩ := bind_ok h
    obtain ⟨n, hn, h⟩ := bind_ok h
    obtain ⟨u, _, h⟩ := bind_ok h
    obtain ⟨is, -, e⟩ := updateDc_ok _ _ _ _ _ _ _ h
    exact dc hl hn (set_nodup _ _ _ (by simp)) e
  case permExDc =>
    simp only [motorValues, permExLimits] at h
    obtain ⟨l, hl, h⟩ := bind_ok h
    obtain ⟨n, hn, h⟩ := bind_ok h
    obtain ⟨u, _, h⟩ := bind_ok h
    obtain ⟨is, -, e⟩ := updateDc_ok _ _ _ _ _ _ _ h
    exact dc hl hn (set_nodup _ _ _ (by simp)) e
  all_goals exact ac h

/-- The first reference of an episode with the default margin, for a state between -1 and 1. -/
theorem wiener_start {R : Rng H} (hR : RngOk R) {t : MotorType} {limits nominal : List ℝ} {g : WienerArg} {c : SubCfg H ℝ}
    (h : WienerOf R t limits nominal g c) (hm : g.margin = none) (hl : entry (low t) ((stateNames t).idxOf g.state) = -1) {q : ℝ}
    (hq : entry nominal ((stateNames t).idxOf g.state) / entry limits ((stateNames t).idxOf g.state) = q) (s : SubSt H ℝ)
    (state : List ℝ) : ∃ s' r o, (subGen c).reset s state none = (s', .ok (r, o)) ∧
      (Within (low t) (high t) r ↔ |q * (2 * (R.uniform s.gen).2 - 1)| ≤ 1) := by
  obtain ⟨hs, hmask⟩ := mask_ok h.mask
  have hi := List.idxOf_lt_length_of_mem hs
  have hlen := (low_spec t).1
  have hst := (c42_steady hR (.wiener (.pair g.sigma.1 g.sigma.2)) ⟨_, _, rfl⟩ (.pair 500 2000) trivial (by norm_num [Range.least]) c
    h.make h.length).1
  have e := h.margin
  rw [entry_high t hi, hl, hm] at e
  simp only [marginArg, setMargin, hq, Except.ok.injEq, Prod.mk.injEq] at e
  obtain ⟨s', h1, -⟩ := reset_at c hst (by rw [hmask]; simpa using hs) s state none (c.low + (c.high - c.low) * (R.uniform s.gen).2)
    (by simp [startValue, h.initial, wienerInitial])
  have hlen' : (place c.mask (c.low + (c.high - c.low) * (R.uniform s.gen).2)).length = (low t).length := by
    simp [place, hmask, hlen]
  refine ⟨s', _, _, h1, ?_⟩
  rw [within_iff (by rw [hlen]; simp [high]) hlen', ← e.1, ← e.2, abs_le]
  have hv : ∀ (v : ℝ), ∀ i < (stateNames t).length, entry (place c.mask v) i = if i = (stateNames t).idxOf g.state then v else 0 := by
    intro v i hi'
    simp only [entry, place, hmask, List.map_map, List.getD_eq_getElem?_getD, List.getElem?_map, List.getElem?_eq_getElem hi',
      Option.map_some, Option.getD_some, Function.comp, decide_eq_true_eq]
    refine if_congr ?_ rfl rfl
    constructor
    · intro he
      rw [← he]
      exact ((stateNames_nodup t).idxOf_getElem i hi').symm
    · rintro rfl
      simp
  constructor
  · intro hw
    have := hw _ (by rw [hlen]; exact hi)
    rw [hv _ _ hi, if_pos rfl, hl, entry_high t hi] at this
    exact ⟨by linarith [this.1], by linarith [this.2]⟩
  · intro hw i hi'
    rw [hlen] at hi'
    rw [hv _ _ hi', entry_high t hi']
    split_ifs with he
    · rw [he, hl]
      exact ⟨by linarith [hw.1], by linarith [hw.2]⟩
    · exact ⟨((low_spec t).2 i hi').2, zero_le_one⟩

/-- C117 fails with the load of the docstring (`PolynomialStaticLoad(limits=dict(omega=150.0))`): with a permanently or externally excited DC
motor, which has a nominal speed of 300, speed references are drawn from -2 to 2.  The first reference of an episode is outside the
state space with every second draw. -/
theorem c117_load_violated {R : Rng H} (hR : RngOk R) {t : MotorType}
    (ht : t = .permExDc ∨ t = .extExDc) {ra re : ℝ} {torque : List ℝ → ℝ}
    {tl : Dict ℝ → Dict ℝ → Except Err ℝ} {motor : Dict ℝ × Dict ℝ} (h : motorValues t ra re torque tl [] [] = .ok motor) {supply : ℝ}
    {limits nominal : List ℝ} (hv : SystemValues t motor ([("omega", 150)], []) supply limits nominal) {g : WienerArg}
    (hg : g.state = "omega") (hm : g.margin = none) {c : SubCfg H ℝ} (hc : WienerOf R t limits nominal g c) (s : SubSt H ℝ)
    (state : List ℝ) : ∃ s' r o, (subGen c).reset s state none = (s', .ok (r, o)) ∧
      (¬ Within (low t) (high t) r ↔ (R.uniform s.gen).2 < 1 / 4 ∨ 3 / 4 < (R.uniform s.gen).2) := by
  obtain ⟨hs, -⟩ := mask_ok hc.mask
  rw [hg] at hs
  have e1 := entry_of_map hv.limits hs
  have e2 := entry_of_map hv.nominal hs
  have k1 : lookup motor.1 "omega" = some 400 := (motor_keeps h (by simp) (by norm_num)).1 (by
    rcases ht with rfl | rfl <;> simp [lookup_nil, Limits.lookup_cons, defLimits, dcDefLimits])
  have k2 : lookup motor.2 "omega" = some 300 := (motor_keeps h (by simp) (by norm_num)).2 (by
    rcases ht with rfl | rfl <;> simp [lookup_nil, Limits.lookup_cons, defNominal, dcDefNominal])
  simp only [systemValue, k1, k2, lookup_nil, Limits.lookup_cons, smaller, show ("omega" : String) ≠ "u_sup" by decide, if_false,
    if_true, Option.none_or, Option.some.injEq] at e1 e2
  have hl : entry (low t) ((stateNames t).idxOf g.state) = -1 := by
    rw [hg]
    rcases ht with rfl | rfl <;>
      simp [stateNames, dcNames, low, dcLow, entry, Space.permEx, Space.series, Space.shunt, Space.extEx, Space.signed, fourLow]
  obtain ⟨s', r, o, h1, h2⟩ := wiener_start hR hc hm hl (q := 2) (by rw [hg, ← e1, ← e2]; norm_num) s state
  refine ⟨s', r, o, h1, ?_⟩
  rw [h2, abs_le, not_and_or, not_le, not_le]
  constructor
  · rintro (h | h)
    · exact Or.inl (by linarith)
    · exact Or.inr (by linarith)
  · rintro (h | h)
    · exact Or.inl (by linarith)
    · exact Or.inr (by linarith)

/-- C117 fails if a limit is given that is smaller than the default nominal value: with a permanent magnet motor with a current limit
`x` below 240, the first current reference of an episode is outside the state space for the largest and the smallest draws. -/
theorem c117_limit_violated {R : Rng H} (hR : RngOk R) {ra re : ℝ} {torque : List ℝ → ℝ} {tl : Dict ℝ → Dict ℝ → Except Err ℝ}
    {x : ℝ} (hx : 0 < x) (hx' : x < 240) {motor : Dict ℝ × Dict ℝ} (h : motorValues .pmsm ra re torque tl [("i", x)] [] = .ok motor)
    {supply : ℝ} {limits nominal : List ℝ} (hv : SystemValues .pmsm motor ([], []) supply limits nominal) {g : WienerArg}
    (hg : g.state = "i_sq") (hm : g.margin = none) {c : SubCfg H ℝ} (hc : WienerOf R .pmsm limits nominal g c) (s : SubSt H ℝ)
    (state : List ℝ) : ∃ s' r o, (subGen c).reset s state none = (s', .ok (r, o)) ∧
      (¬ Within (low .pmsm) (high .pmsm) r ↔ (R.uniform s.gen).2 < 1 / 2 - x / 480 ∨ 1 / 2 + x / 480 < (R.uniform s.gen).2) := by
  obtain ⟨hs, -⟩ := mask_ok hc.mask
  rw [hg] at hs
  have e1 := entry_of_map hv.limits hs
  have e2 := entry_of_map hv.nominal hs
  have k1 : lookup motor.1 "i" = some x := (motor_keeps h (by simp) hx.ne').1 (by simp [lookup_nil, Limits.lookup_cons])
  have k2 : lookup motor.2 "i" = some 240 := (motor_keeps h (by simp) (by norm_num)).2 (by
    simp [lookup_nil, Limits.lookup_cons, defNominal, pmsmDefNominal])
  obtain ⟨g1, -, g2, -⟩ := c69_general_ac _ _ ("u_a", "i_a") _ _ _ _ _ _ (by simp [defLimits, pmsmDefLimits]) (by simp) h
    (by simp [defLimits, pmsmDefLimits, lookup_nil, Limits.lookup_cons])
    (by simp [defNominal, pmsmDefNominal, lookup_nil, Limits.lookup_cons]) (by simp)
    (by simp [defNominal, pmsmDefNominal, lookup_nil, Limits.lookup_cons]) (by simp) ("u_sq", "i_sq") (by simp)
    (by simp [defLimits, pmsmDefLimits, lookup_nil, Limits.lookup_cons])
    (by simp [defLimits, pmsmDefLimits, lookup_nil, Limits.lookup_cons])
    (by simp [defNominal, pmsmDefNominal, lookup_nil, Limits.lookup_cons])
    (by simp [defNominal, pmsmDefNominal, lookup_nil, Limits.lookup_cons])
  simp only at g1 g2
  simp only [systemValue, g1, g2, k1, k2, lookup_nil, smaller, show ("i_sq" : String) ≠ "u_sup" by decide, if_false,
    Option.some.injEq] at e1 e2
  have hl : entry (low .pmsm) ((stateNames .pmsm).idxOf g.state) = -1 := by
    rw [hg]
    simp [stateNames, syncNames, low, acLow, entry]
  obtain ⟨s', r, o, h1, h2⟩ := wiener_start hR hc hm hl (q := 240 / x) (by rw [hg, ← e1, ← e2]) s state
  refine ⟨s', r, o, h1, ?_⟩
  rw [h2, abs_le, not_and_or, not_le, not_le, div_mul_eq_mul_div, div_lt_iff₀ hx, lt_div_iff₀ hx]
  constructor
  · rintro (h | h)
    · exact Or.inl (by linarith)
    · exact Or.inr (by linarith)
  · rintro (h | h)
    · exact Or.inl (by linarith)
    · exact Or.inr (by linarith)

end

end GEM.Props
