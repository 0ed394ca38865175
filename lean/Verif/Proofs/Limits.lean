import Verif.Proofs.Init
import Verif.Model.Limits

/-! # Helper lemmas: dictionary lookups and the filling of limits -/

set_option linter.unusedSectionVars false

namespace GEM.Limits

open GEM.Utils GEM.Init

section lookup

variable {N V : Type*} [DecidableEq N]

theorem lookup_nil (k : N) : lookup ([] : List (N × V)) k = none := rfl

theorem lookup_cons (p : N × V) (a : List (N × V)) (k : N) :
    lookup (p :: a) k = (lookup a k).or (if p.1 = k then some p.2 else none) := by
  unfold lookup
  rw [List.reverse_cons, List.find?_append]
  cases h : List.find? (fun p => decide (p.1 = k)) a.reverse with
  | some x => simp
  | none =>
    by_cases hp : p.1 = k <;> simp [hp]

theorem lookup_append (a b : List (N × V)) (k : N) : lookup (a ++ b) k = (lookup b k).or (lookup a k) := by
  unfold lookup
  rw [List.reverse_append, List.find?_append]
  cases List.find? (fun p => decide (p.1 = k)) b.reverse <;> simp

theorem lookup_isSome (d : List (N × V)) (k : N) : (lookup d k).isSome = true ↔ k ∈ d.map Prod.fst := by
  induction d with
  | nil => simp [lookup_nil]
  | cons p d ih =>
    rw [lookup_cons, List.map_cons, List.mem_cons, Option.isSome_or, Bool.or_eq_true, ih]
    by_cases h : p.1 = k
    · simp [h]
    · simp [h, Ne.symm h]

theorem lookup_eq_none (d : List (N × V)) (k : N) : lookup d k = none ↔ k ∉ d.map Prod.fst := by
  rw [← lookup_isSome]; cases lookup d k <;> simp

theorem lookup_mem (d : List (N × V)) (k : N) (v : V) (h : lookup d k = some v) : (k, v) ∈ d := by
  induction d with
  | nil => simp [lookup_nil] at h
  | cons p d ih =>
    rw [lookup_cons] at h
    cases hd : lookup d k with
    | some w =>
      rw [hd] at h
      simp only [Option.some_or, Option.some.injEq] at h
      subst h
      exact List.mem_cons_of_mem _ (ih hd)
    | none =>
      rw [hd] at h
      by_cases hp : p.1 = k
      · simp only [hp, if_true, Option.none_or, Option.some.injEq] at h
        subst h; subst hp; simp
      · simp [hp] at h

theorem lookup_of_mem (d : List (N × V)) (hd : (d.map Prod.fst).Nodup) (k : N) (v : V) (h : (k, v) ∈ d) :
    lookup d k = some v := by
  induction d with
  | nil => simp at h
  | cons p d ih =>
    simp only [List.map_cons, List.nodup_cons] at hd
    rw [lookup_cons]
    rcases List.mem_cons.1 h with h | h
    · subst h
      rw [(lookup_eq_none d k).2 hd.1]; simp
    · rw [ih hd.2 h]; simp

theorem lookup_set (d : List (N × V)) (k : N) (v : V) (k' : N) :
    lookup (dictSet d k v) k' = if k' = k then some v else lookup d k' := by
  unfold dictSet
  split
  · rename_i h
    have key : ∀ e : List (N × V), lookup (e.map (fun p => if p.1 = k then (k, v) else p)) k' =
        if k' = k then (lookup e k').map (fun _ => v) else lookup e k' := by
      intro e
      induction e with
      | nil => simp [lookup_nil]
      | cons p e ih =>
        rw [List.map_cons, lookup_cons, lookup_cons, ih]
        by_cases hp : p.1 = k
        · by_cases hk : k' = k
          · subst hk; cases lookup e k' <;> simp [hp]
          · have : p.1 ≠ k' := by rw [hp]; exact Ne.symm hk
            simp [hp, hk, Ne.symm hk]
        · by_cases hk : k' = k
          · subst hk; cases lookup e k' <;> simp [hp]
          · simp [hp, hk]
    rw [key]
    by_cases hk : k' = k
    · subst hk
      have := (lookup_isSome d k').2 h
      cases hl : lookup d k' with
      | none => rw [hl] at this; simp at this
      | some w => simp
    · simp [hk]
  · rw [lookup_append, lookup_cons, lookup_nil]
    by_cases hk : k' = k
    · subst hk; simp
    · simp [hk, Ne.symm hk]

theorem lookup_update (d u : List (N × V)) (k : N) : lookup (dictUpdate d u) k = (lookup u k).or (lookup d k) := by
  induction u generalizing d with
  | nil => simp [dictUpdate, lookup_nil]
  | cons p u ih =>
    rw [upd_cons, ih, lookup_set, lookup_cons]
    by_cases hk : k = p.1
    · subst hk; cases lookup u p.1 <;> simp
    · cases lookup u k <;> simp [hk, Ne.symm hk]

theorem lookup_mapVals {W : Type*} (d : List (N × V)) (g : N → V → W) (k : N) :
    lookup (d.map (fun e => (e.1, g e.1 e.2))) k = (lookup d k).map (g k) := by
  induction d with
  | nil => simp [lookup_nil]
  | cons p d ih =>
    rw [List.map_cons, lookup_cons, lookup_cons, ih]
    by_cases hp : p.1 = k
    · subst hp; cases lookup d p.1 <;> simp
    · cases lookup d k <;> simp [hp]

theorem set_nodup (d : List (N × V)) (k : N) (v : V) (hd : (d.map Prod.fst).Nodup) : ((dictSet d k v).map Prod.fst).Nodup := by
  rw [set_keys]
  split
  · exact hd
  · rename_i h
    exact List.nodup_append.2 ⟨hd, by simp, by intro a ha b hb; simp at hb; subst hb; rintro rfl; exact h ha⟩

end lookup

variable {K : Type} [Field K] [LinearOrder K]

/-- `d[k]` counts as missing: not there, or zero. -/
def Missing (d : Dict K) (k : String) : Prop := (lookup d k).getD 0 = 0

instance (d : Dict K) (k : String) : Decidable (Missing d k) := by unfold Missing; infer_instance

theorem fill_lookup (l a : Dict K) (ha : (a.map Prod.fst).Nodup) (k : String) :
    lookup (fillLimits l a) k = if Missing l k then (lookup a k).or (lookup l k) else lookup l k := by
  induction a generalizing l with
  | nil => simp [fillLimits, lookup_nil]
  | cons p a ih =>
    simp only [List.map_cons, List.nodup_cons] at ha
    have hstep : fillLimits l (p :: a) = fillLimits (if Missing l p.1 then dictSet l p.1 p.2 else l) a := rfl
    rw [hstep, ih _ ha.2, lookup_cons]
    by_cases hk : k = p.1
    · subst hk
      rw [(lookup_eq_none a p.1).2 ha.1]
      by_cases hm : Missing l p.1
      · simp only [hm, if_true, lookup_set, Option.none_or]
        split <;> simp
      · simp only [hm, if_false]
    · by_cases hm : Missing l p.1
      · have e : lookup (dictSet l p.1 p.2) k = lookup l k := by rw [lookup_set, if_neg hk]
        have e2 : Missing (dictSet l p.1 p.2) k ↔ Missing l k := by unfold Missing; rw [e]
        simp only [hm, if_true, e, e2, Ne.symm hk, if_false, Option.or_none]
      · simp only [hm, if_false, Ne.symm hk, Option.or_none]

theorem fill_nodup (l a : Dict K) (hl : (l.map Prod.fst).Nodup) : ((fillLimits l a).map Prod.fst).Nodup := by
  induction a generalizing l with
  | nil => exact hl
  | cons p a ih =>
    have hstep : fillLimits l (p :: a) = fillLimits (if Missing l p.1 then dictSet l p.1 p.2 else l) a := rfl
    rw [hstep]
    apply ih
    split
    · exact set_nodup _ _ _ hl
    · exact hl

theorem nominal_eq (n l nd : Dict K) :
    fillNominal n l nd = fillLimits n (l.map (fun e => (e.1, (lookup nd e.1).getD e.2))) := by
  unfold fillNominal fillLimits
  rw [List.foldl_map]

theorem nominal_lookup (n l nd : Dict K) (hl : (l.map Prod.fst).Nodup) (k : String) :
    lookup (fillNominal n l nd) k =
      if Missing n k then ((lookup l k).map (fun x => (lookup nd k).getD x)).or (lookup n k) else lookup n k := by
  rw [nominal_eq, fill_lookup]
  · rw [lookup_mapVals l (fun k x => (lookup nd k).getD x)]
  · rw [List.map_map]; exact hl

/-- Results of `_update_limits`, key by key. -/
theorem base_lookup (omega : K) (l n a nd : Dict K) (ha : (a.map Prod.fst).Nodup) (k : String) :
    lookup (updateBase omega l n a nd).1 k =
      if Missing l k then (if k = "omega" then some omega else (lookup a k).or (lookup l k)) else lookup l k := by
  unfold updateBase
  simp only
  rw [fill_lookup _ _ (set_nodup _ _ _ ha), lookup_set]
  by_cases hk : k = "omega" <;> simp [hk]

theorem base_nominal (omega : K) (l n a nd : Dict K) (hl : (l.map Prod.fst).Nodup) (k : String) :
    lookup (updateBase omega l n a nd).2 k =
      if Missing n k then ((lookup (updateBase omega l n a nd).1 k).map (fun x => (lookup nd k).getD x)).or (lookup n k)
      else lookup n k := by
  unfold updateBase
  simp only
  rw [nominal_lookup _ _ _ (fill_nodup _ _ hl)]

theorem base_nodup (omega : K) (l n a nd : Dict K) (hl : (l.map Prod.fst).Nodup) :
    ((updateBase omega l n a nd).1.map Prod.fst).Nodup := fill_nodup _ _ hl

theorem mergeUser_ok (d u r : Dict K) (h : mergeUser d u = .ok r) :
    r = dictUpdate d u ∧ ∀ k, lookup r k = (lookup u k).or (lookup d k) := by
  unfold mergeUser at h
  split at h
  · simp only [Except.ok.injEq] at h
    subst h
    exact ⟨rfl, fun k => lookup_update d u k⟩
  · simp at h

theorem merge_keys (d u r : Dict K) (h : mergeUser d u = .ok r) (k : String) : lookup d k = none → lookup r k = none := by
  intro hk
  obtain ⟨_, h2⟩ := mergeUser_ok d u r h
  rw [h2, hk]
  cases hu : lookup u k with
  | none => rfl
  | some x =>
    exfalso
    unfold mergeUser at h
    split at h
    · rename_i hall
      exact (lookup_eq_none d k).1 hk (hall _ (lookup_mem u k x hu))
    · simp at h

theorem currentOr_some (d : Dict K) (u : String) (r x : K) (h : lookup d "i" = some x) (hx : x ≠ 0) :
    currentOr d u r = .ok x := by
  unfold currentOr; rw [h]; simp [hx]

theorem currentOr_missing (d : Dict K) (u : String) (r : K) (h : Missing d "i") (hu : lookup d u = none) :
    currentOr d u r = .error .key := by
  unfold currentOr Init.get Missing at *
  rw [hu]
  cases hi : lookup d "i" with
  | none => rfl
  | some x =>
    rw [hi] at h
    simp only [Option.getD_some] at h
    simp [h, Except.map]

/-- The two agendas, key by key. -/
theorem ioLoop_ok (l n : Dict K) (r ul un x y : K) (hx : lookup l "i" = some x) (hx0 : x ≠ 0) (hy : lookup n "i" = some y)
    (hy0 : y ≠ 0) (ios : List (String × String)) (a : Dict K × Dict K)
    (hdis : ∀ p ∈ ios, ∀ q ∈ ios, p.1 ≠ q.2) (h1 : (a.1.map Prod.fst).Nodup) (h2 : (a.2.map Prod.fst).Nodup) :
    ∃ b, ioLoop l n r ul un ios a = .ok b ∧ (b.1.map Prod.fst).Nodup ∧ (b.2.map Prod.fst).Nodup ∧
      (∀ k, lookup b.1 k = if k ∈ ios.map Prod.snd then some x else if k ∈ ios.map Prod.fst then some ul else lookup a.1 k) ∧
      (∀ k, lookup b.2 k = if k ∈ ios.map Prod.snd then some y else if k ∈ ios.map Prod.fst then some un else lookup a.2 k) := by
  induction ios generalizing a with
  | nil => exact ⟨a, rfl, h1, h2, by simp, by simp⟩
  | cons q qs ih =>
    obtain ⟨b, hb, n1, n2, e1, e2⟩ := ih (dictSet (dictSet a.1 q.1 ul) q.2 x, dictSet (dictSet a.2 q.1 un) q.2 y)
      (fun p hp q' hq' => hdis p (List.mem_cons_of_mem _ hp) q' (List.mem_cons_of_mem _ hq'))
      (set_nodup _ _ _ (set_nodup _ _ _ h1)) (set_nodup _ _ _ (set_nodup _ _ _ h2))
    refine ⟨b, ?_, n1, n2, ?_, ?_⟩
    · rw [ioLoop, currentOr_some l q.1 r x hx hx0, currentOr_some n q.1 r y hy hy0]
      exact hb
    · intro k
      rw [e1 k]
      simp only [lookup_set, List.map_cons, List.mem_cons]
      by_cases c1 : k ∈ qs.map Prod.snd
      · simp [c1]
      · by_cases c2 : k ∈ qs.map Prod.fst
        · have : k ≠ q.2 := by
            obtain ⟨p, hp, rfl⟩ := List.mem_map.1 c2
            exact hdis p (List.mem_cons_of_mem _ hp) q (by simp)
          simp [c1, c2, this]
        · simp only [c1, c2, or_false, if_false]
    · intro k
      rw [e2 k]
      simp only [lookup_set, List.map_cons, List.mem_cons]
      by_cases c1 : k ∈ qs.map Prod.snd
      · simp [c1]
      · by_cases c2 : k ∈ qs.map Prod.fst
        · have : k ≠ q.2 := by
            obtain ⟨p, hp, rfl⟩ := List.mem_map.1 c2
            exact hdis p (List.mem_cons_of_mem _ hp) q (by simp)
          simp [c1, c2, this]
        · simp only [c1, c2, or_false, if_false]

/-- Without a general current the loop fails at its first pair, whose voltage is not in the dictionary. -/
theorem ioLoop_missing (l n : Dict K) (r ul un : K) (q : String × String) (qs : List (String × String)) (a : Dict K × Dict K)
    (h : Missing l "i") (hu : lookup l q.1 = none) : ioLoop l n r ul un (q :: qs) a = .error .key := by
  rw [ioLoop, currentOr_missing l q.1 r h hu]; rfl

theorem ioLoop_missing_nominal (l n : Dict K) (r ul un : K) (q : String × String) (qs : List (String × String))
    (a : Dict K × Dict K) (hl : ¬ Missing l "i") (h : Missing n "i") (hu : lookup n q.1 = none) :
    ioLoop l n r ul un (q :: qs) a = .error .key := by
  unfold Missing at hl
  cases hi : lookup l "i" with
  | none => rw [hi] at hl; simp at hl
  | some x =>
    rw [hi] at hl
    rw [ioLoop, currentOr_some l q.1 r x hi (by simpa using hl), currentOr_missing n q.1 r h hu]; rfl

/-- A non-missing entry survives `_update_limits`. -/
theorem base_keeps (omega : K) (l n a nd : Dict K) (k : String) (x : K) (ha : (a.map Prod.fst).Nodup)
    (h : lookup l k = some x) (hx : x ≠ 0) : lookup (updateBase omega l n a nd).1 k = some x := by
  rw [base_lookup _ _ _ _ _ ha, if_neg, h]
  unfold Missing; rw [h]; simpa using hx

theorem base_keeps_nominal (omega : K) (l n a nd : Dict K) (k : String) (x : K) (hl : (l.map Prod.fst).Nodup)
    (h : lookup n k = some x) (hx : x ≠ 0) : lookup (updateBase omega l n a nd).2 k = some x := by
  rw [base_nominal _ _ _ _ _ hl, if_neg, h]
  unfold Missing; rw [h]; simpa using hx

/-- Without a nominal agenda, a nominal value is only zero if the limit is. -/
theorem base_complete (omega : K) (l n a : Dict K) (hl : (l.map Prod.fst).Nodup) (k : String) (x : K)
    (h : lookup (updateBase omega l n a []).1 k = some x) :
    ∃ y, lookup (updateBase omega l n a []).2 k = some y ∧ (y = 0 → x = 0) := by
  rw [base_nominal _ _ _ _ _ hl, h, lookup_nil]
  by_cases hm : Missing n k
  · rw [if_pos hm]; exact ⟨x, by simp, fun h => h⟩
  · rw [if_neg hm]
    unfold Missing at hm
    cases hn : lookup n k with
    | none => rw [hn] at hm; simp at hm
    | some y => rw [hn] at hm; exact ⟨y, rfl, fun h => absurd h (by simpa using hm)⟩

theorem merge_nodup (d u r : Dict K) (hd : (d.map Prod.fst).Nodup) (hu : (u.map Prod.fst).Nodup)
    (h : mergeUser d u = .ok r) : (r.map Prod.fst).Nodup := by
  rw [(mergeUser_ok d u r h).1]; exact upd_nodup _ _ hd hu

/-- The agendas have no duplicate keys, whatever they contain. -/
theorem ioLoop_nodup (l n : Dict K) (r ul un : K) (ios : List (String × String)) (a b : Dict K × Dict K)
    (h : ioLoop l n r ul un ios a = .ok b) (h1 : (a.1.map Prod.fst).Nodup) : (b.1.map Prod.fst).Nodup := by
  induction ios generalizing a with
  | nil => simp only [ioLoop, Except.ok.injEq] at h; rw [← h]; exact h1
  | cons q qs ih =>
    rw [ioLoop] at h
    obtain ⟨il, _, h⟩ := bind_ok h
    obtain ⟨inn, _, h⟩ := bind_ok h
    exact ih _ h (set_nodup _ _ _ (set_nodup _ _ _ h1))

/-- What a successful construction of an AC motor consists of. -/
theorem acLimits_ok (defL defN : Dict K) (ios : List (String × String)) (r : K) (tl : Dict K → Dict K → Except Err K)
    (uL uN : Dict K) (res : Dict K × Dict K) (h : acLimits defL defN ios r tl uL uN = .ok res) :
    ∃ l n omega a t, mergeUser defL uL = .ok l ∧ mergeUser defN uN = .ok n ∧ lookup defL "omega" = some omega ∧
      ioAgenda l n r ios = .ok a ∧
      tl (updateBase omega l n a.1 a.2).1 (updateBase omega l n a.1 a.2).2 = .ok t ∧
      res = updateBase omega (updateBase omega l n a.1 a.2).1 (updateBase omega l n a.1 a.2).2 [("torque", t)] [] := by
  unfold acLimits at h
  obtain ⟨l, hl, h⟩ := bind_ok h
  obtain ⟨n, hn, h⟩ := bind_ok h
  obtain ⟨omega, ho, h⟩ := bind_ok h
  obtain ⟨a, ha, h⟩ := bind_ok h
  unfold updateThreePhase at h
  obtain ⟨t, ht, h⟩ := bind_ok h
  refine ⟨l, n, omega, a, t, hl, hn, ?_, ha, ht, ?_⟩
  · unfold Init.get at ho
    cases hq : lookup defL "omega" with
    | none => rw [hq] at ho; simp at ho
    | some w => rw [hq] at ho; simpa using ho
  · simpa using h.symm

/-- What a successful construction of a DC motor consists of. -/
theorem updateDc_ok (omega : K) (torque : List K → K) (cs : List String) (l n a : Dict K) (res : Dict K × Dict K)
    (h : updateDc omega torque cs l n a = .ok res) :
    ∃ is, cs.mapM (get l) = .ok is ∧ res = updateBase omega l n (dictSet a "torque" (torque is)) [] := by
  unfold updateDc at h
  obtain ⟨is, hi, h⟩ := bind_ok h
  exact ⟨is, hi, by simpa using h.symm⟩

end GEM.Limits
