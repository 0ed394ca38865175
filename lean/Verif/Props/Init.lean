import Mathlib.Algebra.Order.Field.Basic
import Mathlib.Algebra.Order.Ring.Rat
import Mathlib.Tactic.Positivity
import Mathlib.Tactic.FieldSimp
import Mathlib.Tactic.NormNum
import Verif.Proofs.Init

/-!
# Properties of initial states (C30, C67, C68)

An episode is one call of `reset`; `motorResets … draws (motorInitial c)` is the list of what a freshly constructed motor
returns over any number of episodes, `draws` being the random numbers of each.
-/

set_option linter.unusedSectionVars false

namespace GEM.Props

open GEM.Init GEM.Utils

variable {K : Type} [Field K] [LinearOrder K]

/-! ## C30: named initial values reach the state they name -/

/-- The order in which the states stand in the vector returned by `reset`: first the user's keys in the order they were
written, then the remaining default keys. -/
def writtenOrder (U D : Dict K) : List String :=
  U.map Prod.fst ++ (D.map Prod.fst).filter (fun k => k ∉ U.map Prod.fst)

/-- Whatever the bounds are and in whatever episode: the state vector of a motor with constant initial values contains the
values in the order in which the dictionary was written, not at the positions of the states they name. -/
theorem c30_insertion_order (c : Cfg K) (U : Dict K) (hc : c.dist = none) (hs : c.states = some U) (hne : U ≠ [])
    (hU : (U.map Prod.fst).Nodup) (hD : (c.defaults.map Prod.fst).Nodup)
    (bounds : List String → Except Err (List K × List K)) (rvs : Rvs K) (pool nZero : ℕ) (draws : List (List K))
    (r : Except Err (List K)) (hr : r ∈ motorResets c bounds rvs pool nZero draws (motorInitial c)) (v : List K)
    (hv : r = .ok v) :
    v.length = (writtenOrder U c.defaults).length ∧
    ∀ (i : ℕ) (k : String) (x : K), (writtenOrder U c.defaults)[i]? = some k →
      ((k, x) ∈ U → v[i]? = some x) ∧ (k ∉ U.map Prod.fst → (k, x) ∈ c.defaults → v[i]? = some x) := by
  have hs' : c.states.getD [] = U := by rw [hs]; rfl
  have hU' : ((c.states.getD []).map Prod.fst).Nodup := by rw [hs']; exact hU
  rw [motorResets_eq c hU' hD (by rw [hs']; exact hne) _ _ _ _ _ _ (Or.inl rfl)] at hr
  obtain ⟨d, _, hd⟩ := List.mem_map.1 hr
  rw [hv, resetOnce] at hd
  obtain ⟨b, _, hd⟩ := bind_ok hd
  obtain ⟨vals, hvals, hd⟩ := bind_ok hd
  have e : v = (merged c).map Prod.snd := by
    simp only [drawValues, hc] at hvals
    obtain ⟨x, _, hvals⟩ := bind_ok hvals
    obtain ⟨y, _, hvals⟩ := bind_ok hvals
    split at hvals
    · simp only [Except.ok.injEq] at hvals hd
      rw [← hd, ← hvals, writeBack_same _ (merged_nodup c hU' hD)]
    · simp at hvals
  have hk : (merged c).map Prod.fst = writtenOrder U c.defaults := by
    rw [merged_keys c hU' hD, hs']; rfl
  subst e
  refine ⟨by rw [← hk]; simp, ?_⟩
  intro i k x hi
  rw [← hk] at hi
  constructor
  · intro hm
    exact value_at _ (merged_nodup c hU' hD) i k x hi ((merged_mem c hU' hD k x).2 (Or.inl (by rw [hs']; exact hm)))
  · intro h1 h2
    exact value_at _ (merged_nodup c hU' hD) i k x hi ((merged_mem c hU' hD k x).2 (Or.inr ⟨by rw [hs']; exact h1, h2⟩))

/-- What holds: a dictionary that names all states, written in the order of the motor's ODE. Missing: any other order. -/
theorem c30_complete_partial (c : Cfg K) (U : Dict K) (names : List String) (hc : c.dist = none)
    (hs : c.states = some U) (hne : U ≠ []) (hn : names.Nodup) (hU : U.map Prod.fst = names)
    (hD : (c.defaults.map Prod.fst).Nodup) (hsub : ∀ k ∈ c.defaults.map Prod.fst, k ∈ names)
    (bounds : List String → Except Err (List K × List K)) (rvs : Rvs K) (pool nZero : ℕ) (draws : List (List K))
    (r : Except Err (List K)) (hr : r ∈ motorResets c bounds rvs pool nZero draws (motorInitial c)) (v : List K)
    (hv : r = .ok v) (i : ℕ) (k : String) (x : K) (hi : names[i]? = some k) (hx : (k, x) ∈ U) : v[i]? = some x := by
  have ho : writtenOrder U c.defaults = names := by
    unfold writtenOrder
    rw [hU, List.filter_eq_nil_iff.2 (by intro a ha; simpa using hsub a ha), List.append_nil]
  exact ((c30_insertion_order c U hc hs hne (by rw [hU]; exact hn) hD bounds rvs pool nZero draws r hr v hv).2 i k x
    (by rw [ho]; exact hi)).1 hx

/-- What also holds: for the motors whose class default is written in the order of the ODE (DC and induction motors), a
dictionary that names the first states in that order; the others get their default. -/
theorem c30_prefix_partial (c : Cfg K) (U : Dict K) (names : List String) (hc : c.dist = none)
    (hs : c.states = some U) (hne : U ≠ []) (hn : names.Nodup) (hU : U.map Prod.fst <+: names)
    (hD : c.defaults.map Prod.fst = names)
    (bounds : List String → Except Err (List K × List K)) (rvs : Rvs K) (pool nZero : ℕ) (draws : List (List K))
    (r : Except Err (List K)) (hr : r ∈ motorResets c bounds rvs pool nZero draws (motorInitial c)) (v : List K)
    (hv : r = .ok v) (i : ℕ) (k : String) (x : K) (hi : names[i]? = some k) :
    ((k, x) ∈ U → v[i]? = some x) ∧ (k ∉ U.map Prod.fst → (k, x) ∈ c.defaults → v[i]? = some x) := by
  obtain ⟨rest, hrest⟩ := hU
  have hdis : ∀ k ∈ rest, k ∉ U.map Prod.fst := by
    intro k hk hk'
    rw [← hrest] at hn
    exact (List.nodup_append.1 hn).2.2 k hk' k hk rfl
  have ho : writtenOrder U c.defaults = names := by
    unfold writtenOrder
    rw [hD, ← hrest, List.filter_append, List.filter_eq_nil_iff.2 (by intro a ha; simpa using ha), List.nil_append]
    congr 1
    exact List.filter_eq_self.2 (by intro a ha; simpa using hdis a ha)
  have hUn : (U.map Prod.fst).Nodup := by
    rw [← hrest] at hn; exact (List.nodup_append.1 hn).1
  exact (c30_insertion_order c U hc hs hne hUn (by rw [hD]; exact hn) bounds rvs pool nZero draws r hr v hv).2 i k x
    (by rw [ho]; exact hi)

/-- The dictionary written in the order of the class's own default (`i_sq` first) puts the value for `i_sq` into `i_sd`
and the value for `i_sd` into `i_sq`, in every episode. -/
theorem c30_sync_violated (c : Cfg K) (a b e : K) (hc : c.dist = none)
    (hs : c.states = some [("i_sq", a), ("i_sd", b), ("epsilon", e)]) (hd : c.defaults = syncDefaults)
    (bounds : List String → Except Err (List K × List K)) (rvs : Rvs K) (pool nZero : ℕ) (draws : List (List K))
    (r : Except Err (List K)) (hr : r ∈ motorResets c bounds rvs pool nZero draws (motorInitial c)) (v : List K)
    (hv : r = .ok v) :
    syncOdeNames[0]? = some "i_sd" ∧ v[0]? = some a ∧ syncOdeNames[1]? = some "i_sq" ∧ v[1]? = some b := by
  have h := (c30_insertion_order c _ hc hs (by simp) (by simp) (by rw [hd]; simp [syncDefaults]) bounds rvs pool nZero
    draws r hr v hv).2
  exact ⟨rfl, (h 0 "i_sq" a rfl).1 (by simp), rfl, (h 1 "i_sd" b rfl).1 (by simp)⟩

/-- Naming only the rotor angle puts the angle into the direct-axis current. -/
theorem c30_angle_violated (c : Cfg K) (e : K) (hc : c.dist = none) (hs : c.states = some [("epsilon", e)])
    (hd : c.defaults = syncDefaults)
    (bounds : List String → Except Err (List K × List K)) (rvs : Rvs K) (pool nZero : ℕ) (draws : List (List K))
    (r : Except Err (List K)) (hr : r ∈ motorResets c bounds rvs pool nZero draws (motorInitial c)) (v : List K)
    (hv : r = .ok v) :
    syncOdeNames[0]? = some "i_sd" ∧ v[0]? = some e ∧ syncOdeNames[2]? = some "epsilon" ∧ v[2]? = some 0 := by
  have h := (c30_insertion_order c _ hc hs (by simp) (by simp) (by rw [hd]; simp [syncDefaults]) bounds rvs pool nZero
    draws r hr v hv).2
  exact ⟨rfl, (h 0 "epsilon" e rfl).1 (by simp), rfl,
    (h 2 "i_sd" 0 (by rw [hd]; simp [writtenOrder, syncDefaults])).2 (by simp) (by rw [hd]; simp [syncDefaults])⟩

/-- The same for the externally excited machine. -/
theorem c30_eesm_violated (c : Cfg K) (a b f e : K) (hc : c.dist = none)
    (hs : c.states = some [("i_sq", a), ("i_sd", b), ("i_e", f), ("epsilon", e)]) (hd : c.defaults = eesmDefaults)
    (bounds : List String → Except Err (List K × List K)) (rvs : Rvs K) (pool nZero : ℕ) (draws : List (List K))
    (r : Except Err (List K)) (hr : r ∈ motorResets c bounds rvs pool nZero draws (motorInitial c)) (v : List K)
    (hv : r = .ok v) :
    eesmOdeNames[0]? = some "i_sd" ∧ v[0]? = some a ∧ eesmOdeNames[1]? = some "i_sq" ∧ v[1]? = some b := by
  have h := (c30_insertion_order c _ hc hs (by simp) (by simp) (by rw [hd]; simp [eesmDefaults]) bounds rvs pool nZero
    draws r hr v hv).2
  exact ⟨rfl, (h 0 "i_sq" a rfl).1 (by simp), rfl, (h 1 "i_sd" b rfl).1 (by simp)⟩

/-- A constant initial value outside the nominal range or the given interval is refused with an exception, values inside
are accepted, in every episode. -/
theorem c30_checked (c : Cfg K) (U : Dict K) (hc : c.dist = none) (hs : c.states = some U) (hne : U ≠ [])
    (hU : (U.map Prod.fst).Nodup) (hD : (c.defaults.map Prod.fst).Nodup)
    (bounds : List String → Except Err (List K × List K)) (b : List K × List K)
    (hb : bounds (writtenOrder U c.defaults) = .ok b) (h1 : b.1.length = (writtenOrder U c.defaults).length)
    (h2 : b.2.length = (writtenOrder U c.defaults).length)
    (rvs : Rvs K) (pool nZero : ℕ) (draws : List (List K))
    (r : Except Err (List K)) (hr : r ∈ motorResets c bounds rvs pool nZero draws (motorInitial c)) :
    (r = .error .generic ∨ ∃ v, r = .ok v) ∧
    ((∃ v, r = .ok v) ↔ ∀ (i : ℕ) (k : String) (x l u : K), (writtenOrder U c.defaults)[i]? = some k →
      ((k, x) ∈ U ∨ (k ∉ U.map Prod.fst ∧ (k, x) ∈ c.defaults)) → b.1[i]? = some l → b.2[i]? = some u →
      l ≤ x ∧ x ≤ u) := by
  have hs' : c.states.getD [] = U := by rw [hs]; rfl
  have hU' : ((c.states.getD []).map Prod.fst).Nodup := by rw [hs']; exact hU
  have hn := merged_nodup c hU' hD
  have hk : (merged c).map Prod.fst = writtenOrder U c.defaults := by
    rw [merged_keys c hU' hD, hs']; rfl
  have hlen : (writtenOrder U c.defaults).length = (merged c).length := by rw [← hk]; simp
  rw [motorResets_eq c hU' hD (by rw [hs']; exact hne) _ _ _ _ _ _ (Or.inl rfl)] at hr
  obtain ⟨d, _, hd⟩ := List.mem_map.1 hr
  have hmem : ∀ k x, (k, x) ∈ merged c ↔ ((k, x) ∈ U ∨ (k ∉ U.map Prod.fst ∧ (k, x) ∈ c.defaults)) := by
    intro k x; rw [merged_mem c hU' hD, hs']
  obtain ⟨x, hx, hx'⟩ := ball_ok b.1 ((merged c).map Prod.snd) (by rw [h1, hlen]; simp)
  obtain ⟨y, hy, hy'⟩ := ball_ok ((merged c).map Prod.snd) b.2 (by rw [h2, hlen]; simp)
  have hres : r = if (x && y) = true then .ok ((merged c).map Prod.snd) else .error .generic := by
    rw [← hd, resetOnce, hk, hb]
    simp only [bind, Except.bind, drawValues, hc, hx, hy]
    by_cases hxy : (x && y) = true
    · rw [if_pos hxy]
      simp only
      rw [writeBack_same _ hn]
    · rw [if_neg hxy]
  have hiff : (x && y) = true ↔ ∀ (i : ℕ) (k : String) (x l u : K), (writtenOrder U c.defaults)[i]? = some k →
      ((k, x) ∈ U ∨ (k ∉ U.map Prod.fst ∧ (k, x) ∈ c.defaults)) → b.1[i]? = some l → b.2[i]? = some u →
      l ≤ x ∧ x ≤ u := by
    rw [Bool.and_eq_true, hx', hy']
    constructor
    · rintro ⟨ha, hb'⟩ i k z l u hi hz hl hu
      have := value_at _ hn i k z (by rw [hk]; exact hi) ((hmem k z).2 hz)
      exact ⟨ha i l z hl this, hb' i z u this hu⟩
    · intro hall
      have key : ∀ (i : ℕ) (z : K), ((merged c).map Prod.snd)[i]? = some z →
          ∃ k, (writtenOrder U c.defaults)[i]? = some k ∧ (k, z) ∈ merged c := by
        intro i z hz
        rw [List.getElem?_map, Option.map_eq_some_iff] at hz
        obtain ⟨p, hp, rfl⟩ := hz
        exact ⟨p.1, by rw [← hk, List.getElem?_map, hp]; rfl, List.mem_of_getElem? hp⟩
      constructor
      · intro i l z hl hz
        obtain ⟨k, hki, hkz⟩ := key i z hz
        have hil : i < b.2.length := by
          have := (List.getElem?_eq_some_iff.1 hl).1; omega
        exact (hall i k z l _ hki ((hmem k z).1 hkz) hl (List.getElem?_eq_getElem hil)).1
      · intro i z u hz hu
        obtain ⟨k, hki, hkz⟩ := key i z hz
        have hil : i < b.1.length := by
          have := (List.getElem?_eq_some_iff.1 hu).1; omega
        exact (hall i k z _ u hki ((hmem k z).1 hkz) (List.getElem?_eq_getElem hil) hu).2
  rw [← hiff, hres]
  by_cases hxy : (x && y) = true
  · rw [if_pos hxy]; exact ⟨Or.inr ⟨_, rfl⟩, ⟨fun _ => hxy, fun _ => ⟨_, rfl⟩⟩⟩
  · rw [if_neg hxy]; exact ⟨Or.inl rfl, ⟨fun ⟨_, h⟩ => by simp at h, fun h => absurd h hxy⟩⟩

/-! ## C67: random initial values lie in the requested interval and in the nominal range -/

/-- Uniform initialisation: if interval and nominal range have a common point for every state, every episode succeeds and
every value lies in the interval and between the nominal value and its lower counterpart.
Missing: the other case, see `c67_disjoint_violated`. -/
theorem c67_uniform_partial [IsStrictOrderedRing K] (c : Cfg K) (U : Dict K) (hc : c.dist = some .uniform) (hs : c.states = some U) (hne : U ≠ [])
    (hU : (U.map Prod.fst).Nodup) (hD : (c.defaults.map Prod.fst).Nodup)
    (nominal : Dict K) (positions : List (String × ℕ)) (low : List K) (iv : List (K × K))
    (hiv : c.interval = some iv) (hlen : iv.length = (writtenOrder U c.defaults).length)
    (hdef : ∃ b, motorBounds nominal positions low c.interval (writtenOrder U c.defaults) = .ok b)
    (hcommon : ∀ (i : ℕ) (k : String) (n s : K) (j : ℕ) (p : K × K), (writtenOrder U c.defaults)[i]? = some k →
      lookup nominal k = some n → lookup positions k = some j → low[j]? = some s → iv[i]? = some p →
      max (n * s) p.1 ≤ min n p.2)
    (rvs : Rvs K) (pool nZero : ℕ) (draws : List (List K))
    (hdraw : ∀ d ∈ draws, d.length = (writtenOrder U c.defaults).length ∧ ∀ x ∈ d, 0 ≤ x ∧ x ≤ 1)
    (r : Except Err (List K))
    (hr : r ∈ motorResets c (motorBounds nominal positions low c.interval) rvs pool nZero draws (motorInitial c)) :
    ∃ v, r = .ok v ∧ v.length = (writtenOrder U c.defaults).length ∧
      ∀ (i : ℕ) (k : String), (writtenOrder U c.defaults)[i]? = some k →
        ∃ (x n s : K) (j : ℕ) (p : K × K), v[i]? = some x ∧ lookup nominal k = some n ∧ lookup positions k = some j ∧
          low[j]? = some s ∧ iv[i]? = some p ∧ p.1 ≤ x ∧ x ≤ p.2 ∧ n * s ≤ x ∧ x ≤ n := by
  have hs' : c.states.getD [] = U := by rw [hs]; rfl
  have hU' : ((c.states.getD []).map Prod.fst).Nodup := by rw [hs']; exact hU
  have hk : (merged c).map Prod.fst = writtenOrder U c.defaults := by
    rw [merged_keys c hU' hD, hs']; rfl
  have hml : (writtenOrder U c.defaults).length = (merged c).length := by rw [← hk]; simp
  rw [motorResets_eq c hU' hD (by rw [hs']; exact hne) _ _ _ _ _ _ (Or.inl rfl)] at hr
  obtain ⟨d, hdm, hd⟩ := List.mem_map.1 hr
  obtain ⟨hdl, hd01⟩ := hdraw d hdm
  obtain ⟨b, hb⟩ := hdef
  rw [hiv] at hb
  obtain ⟨l1, l2, hat⟩ := motorBounds_at nominal positions low iv _ b hlen hb
  obtain ⟨v, hv, hvl, hvat⟩ := uniform_at c hU' hD hc (motorBounds nominal positions low c.interval) rvs pool d b
    (by rw [hk, hiv]; exact hb) (by rw [l1, hml]) (by rw [l2, hml]) (by rw [hdl, hml])
  refine ⟨v, by rw [← hd, hv], by rw [hvl, hml], ?_⟩
  intro i k hi
  obtain ⟨n, j, s, p, hn, hj, hs2, hp, hlo, hup⟩ := hat i k hi
  have hil : i < d.length := by have := (List.getElem?_eq_some_iff.1 hi).1; omega
  have h01 := hd01 _ (List.getElem_mem hil)
  have hx := hvat i _ _ _ hlo hup (List.getElem?_eq_getElem hil)
  have hle := hcommon i k n s j p hi hn hj hs2 hp
  refine ⟨_, n, s, j, p, hx, hn, hj, hs2, hp, ?_⟩
  set l := max (n * s) p.1
  set u := min n p.2
  have a1 : l ≤ (u - l) * d[i] + l := by nlinarith [mul_nonneg (sub_nonneg.2 hle) h01.1]
  have a2 : (u - l) * d[i] + l ≤ u := by nlinarith [mul_nonneg (sub_nonneg.2 hle) (sub_nonneg.2 h01.2)]
  exact ⟨(le_max_right _ _).trans a1, a2.trans (min_le_right _ _), (le_max_left _ _).trans a1, a2.trans (min_le_left _ _)⟩

/-- An interval that lies above the nominal value of its state: no error is raised, every episode starts with a value above
the nominal value and below the interval. -/
theorem c67_disjoint_violated [IsStrictOrderedRing K] (c : Cfg K) (U : Dict K) (hc : c.dist = some .uniform) (hs : c.states = some U) (hne : U ≠ [])
    (hU : (U.map Prod.fst).Nodup) (hD : (c.defaults.map Prod.fst).Nodup)
    (nominal : Dict K) (positions : List (String × ℕ)) (low : List K) (iv : List (K × K))
    (hiv : c.interval = some iv) (hlen : iv.length = (writtenOrder U c.defaults).length)
    (hdef : ∃ b, motorBounds nominal positions low c.interval (writtenOrder U c.defaults) = .ok b)
    (i : ℕ) (k : String) (n s : K) (j : ℕ) (p : K × K) (hi : (writtenOrder U c.defaults)[i]? = some k)
    (hn : lookup nominal k = some n) (hj : lookup positions k = some j) (hs2 : low[j]? = some s) (hp : iv[i]? = some p)
    (hs1 : n * s ≤ n) (hout : n < p.1) (hord : p.1 ≤ p.2)
    (rvs : Rvs K) (pool nZero : ℕ) (draws : List (List K))
    (hdraw : ∀ d ∈ draws, d.length = (writtenOrder U c.defaults).length ∧ ∀ x ∈ d, 0 < x ∧ x < 1)
    (r : Except Err (List K))
    (hr : r ∈ motorResets c (motorBounds nominal positions low c.interval) rvs pool nZero draws (motorInitial c)) :
    ∃ v x, r = .ok v ∧ v[i]? = some x ∧ n < x ∧ x < p.1 := by
  have hs' : c.states.getD [] = U := by rw [hs]; rfl
  have hU' : ((c.states.getD []).map Prod.fst).Nodup := by rw [hs']; exact hU
  have hk : (merged c).map Prod.fst = writtenOrder U c.defaults := by
    rw [merged_keys c hU' hD, hs']; rfl
  have hml : (writtenOrder U c.defaults).length = (merged c).length := by rw [← hk]; simp
  rw [motorResets_eq c hU' hD (by rw [hs']; exact hne) _ _ _ _ _ _ (Or.inl rfl)] at hr
  obtain ⟨d, hdm, hd⟩ := List.mem_map.1 hr
  obtain ⟨hdl, hd01⟩ := hdraw d hdm
  obtain ⟨b, hb⟩ := hdef
  rw [hiv] at hb
  obtain ⟨l1, l2, hat⟩ := motorBounds_at nominal positions low iv _ b hlen hb
  obtain ⟨v, hv, hvl, hvat⟩ := uniform_at c hU' hD hc (motorBounds nominal positions low c.interval) rvs pool d b
    (by rw [hk, hiv]; exact hb) (by rw [l1, hml]) (by rw [l2, hml]) (by rw [hdl, hml])
  obtain ⟨n', j', s', p', hn', hj', hs3, hp', hlo, hup⟩ := hat i k hi
  rw [hn] at hn'; cases hn'
  rw [hj] at hj'; cases hj'
  rw [hs2] at hs3; cases hs3
  rw [hp] at hp'; cases hp'
  have hil : i < d.length := by have := (List.getElem?_eq_some_iff.1 hi).1; omega
  have h01 := hd01 _ (List.getElem_mem hil)
  have hx := hvat i _ _ _ hlo hup (List.getElem?_eq_getElem hil)
  rw [max_eq_right (hs1.trans hout.le), min_eq_left (hout.le.trans hord)] at hx
  refine ⟨v, _, by rw [← hd, hv], hx, ?_, ?_⟩
  · nlinarith [mul_pos (sub_pos.2 hout) (sub_pos.2 h01.2)]
  · nlinarith [mul_pos (sub_pos.2 hout) h01.1]

/-- The contract of `truncnorm.rvs`: `size` values, each between the truncation points. -/
def RvsSpec [IsStrictOrderedRing K] (rvs : Rvs K) : Prop :=
  ∀ (a b m : List K) (sg : K) (n pool : ℕ), 0 < sg → a.length = n → b.length = n → m.length = n →
    (rvs a b m sg n pool).length = n ∧
    ∀ (i : ℕ) (ai bi mi x : K), a[i]? = some ai → b[i]? = some bi → m[i]? = some mi → ai ≤ bi →
      (rvs a b m sg n pool)[i]? = some x → ai * sg + mi ≤ x ∧ x ≤ bi * sg + mi

/-- Normal initialisation with a positive standard deviation: every value lies between the bounds.
Missing: the other case as above, and the mean of zero, see `c67_mean_zero_violated`. -/
theorem c67_normal_partial [IsStrictOrderedRing K] (c : Cfg K) (U : Dict K) (hc : c.dist = some .normal) (hs : c.states = some U) (hne : U ≠ [])
    (hU : (U.map Prod.fst).Nodup) (hD : (c.defaults.map Prod.fst).Nodup)
    (hsg : ∀ sg, c.sigma = some sg → 0 ≤ sg)
    (nominal : Dict K) (positions : List (String × ℕ)) (low : List K) (iv : List (K × K))
    (hiv : c.interval = some iv) (hlen : iv.length = (writtenOrder U c.defaults).length)
    (hdef : ∃ b, motorBounds nominal positions low c.interval (writtenOrder U c.defaults) = .ok b)
    (hcommon : ∀ (i : ℕ) (k : String) (n s : K) (j : ℕ) (p : K × K), (writtenOrder U c.defaults)[i]? = some k →
      lookup nominal k = some n → lookup positions k = some j → low[j]? = some s → iv[i]? = some p →
      max (n * s) p.1 ≤ min n p.2)
    (rvs : Rvs K) (hrvs : RvsSpec rvs) (pool nZero : ℕ) (draws : List (List K)) (r : Except Err (List K))
    (hr : r ∈ motorResets c (motorBounds nominal positions low c.interval) rvs pool nZero draws (motorInitial c)) :
    ∃ v, r = .ok v ∧ v.length = (writtenOrder U c.defaults).length ∧
      ∀ (i : ℕ) (k : String), (writtenOrder U c.defaults)[i]? = some k →
        ∃ (x n s : K) (j : ℕ) (p : K × K), v[i]? = some x ∧ lookup nominal k = some n ∧ lookup positions k = some j ∧
          low[j]? = some s ∧ iv[i]? = some p ∧ p.1 ≤ x ∧ x ≤ p.2 ∧ n * s ≤ x ∧ x ≤ n := by
  have hs' : c.states.getD [] = U := by rw [hs]; rfl
  have hU' : ((c.states.getD []).map Prod.fst).Nodup := by rw [hs']; exact hU
  have hnd := merged_nodup c hU' hD
  have hk : (merged c).map Prod.fst = writtenOrder U c.defaults := by
    rw [merged_keys c hU' hD, hs']; rfl
  have hml : (writtenOrder U c.defaults).length = (merged c).length := by rw [← hk]; simp
  rw [motorResets_eq c hU' hD (by rw [hs']; exact hne) _ _ _ _ _ _ (Or.inl rfl)] at hr
  obtain ⟨d, hdm, hd⟩ := List.mem_map.1 hr
  obtain ⟨b, hb⟩ := hdef
  have hb0 := hb
  rw [hiv] at hb
  obtain ⟨l1, l2, hat⟩ := motorBounds_at nominal positions low iv _ b hlen hb
  have hsg0 : 0 < orElse c.sigma 1 := by
    unfold orElse
    cases hq : c.sigma with
    | none => exact one_pos
    | some w =>
      simp only
      by_cases hw : w = 0
      · rw [if_pos hw]; exact one_pos
      · rw [if_neg hw]; exact lt_of_le_of_ne (hsg w hq) (Ne.symm hw)
  set sg := orElse c.sigma 1 with hsgdef
  have hm : (meanOf c.mu b.1 b.2).length = (merged c).length := by
    unfold meanOf
    split
    · simp [l1, l2, hml]
    · split
      · simp [l1, l2, hml]
      · simp [l1, hml]
  set m := meanOf c.mu b.1 b.2 with hmdef
  obtain ⟨g1, g2⟩ := hrvs (List.zipWith (fun l m => (l - m) / sg) b.1 m) (List.zipWith (fun u m => (u - m) / sg) b.2 m) m
    sg (merged c).length pool hsg0 (by simp [l1, hm, hml]) (by simp [l2, hm, hml]) hm
  have hres : r = .ok (rvs (List.zipWith (fun l m => (l - m) / sg) b.1 m) (List.zipWith (fun u m => (u - m) / sg) b.2 m) m
      sg (merged c).length pool) := by
    rw [← hd, resetOnce, hk, hb0]
    simp only [bind, Except.bind, drawValues, hc, ← hmdef, ← hsgdef]
    rw [(writeBack_spec _ _ hnd g1).2]
  refine ⟨_, hres, by rw [g1, hml], ?_⟩
  intro i k hi
  obtain ⟨n, j, s, p, hn, hj, hs2, hp, hlo, hup⟩ := hat i k hi
  have hil : i < (merged c).length := by have := (List.getElem?_eq_some_iff.1 hi).1; omega
  have hmi : m[i]? = some (m[i]'(by rw [hm]; exact hil)) := List.getElem?_eq_getElem _
  have hle := hcommon i k n s j p hi hn hj hs2 hp
  have hx := g2 i _ _ _ _ (zipWith_at _ _ _ _ _ _ hlo hmi) (zipWith_at _ _ _ _ _ _ hup hmi) hmi
    (by gcongr) (List.getElem?_eq_getElem (by rw [g1]; exact hil))
  refine ⟨_, n, s, j, p, List.getElem?_eq_getElem (by rw [g1]; exact hil), hn, hj, hs2, hp, ?_⟩
  have e1 : ∀ z : K, (z - m[i]'(by rw [hm]; exact hil)) / sg * sg + m[i]'(by rw [hm]; exact hil) = z := by
    intro z; field_simp; ring
  rw [e1, e1] at hx
  exact ⟨(le_max_right _ _).trans hx.1, hx.2.trans (min_le_right _ _), (le_max_left _ _).trans hx.1,
    hx.2.trans (min_le_left _ _)⟩

/-- A mean of zero is treated as if none had been given: the two configurations cannot be told apart in any episode. -/
theorem c67_mean_zero_violated (c : Cfg K) (bounds : List String → Except Err (List K × List K)) (rvs : Rvs K)
    (pool nZero : ℕ) (draws : List (List K)) :
    motorResets {c with mu := some 0} bounds rvs pool nZero draws (motorInitial {c with mu := some 0}) =
    motorResets {c with mu := none} bounds rvs pool nZero draws (motorInitial {c with mu := none}) := by
  have h : ∀ (ds : List (List K)) (cur : Dict K), motorResets {c with mu := some 0} bounds rvs pool nZero ds cur =
      motorResets {c with mu := none} bounds rvs pool nZero ds cur := by
    intro ds
    induction ds with
    | nil => intro cur; rfl
    | cons d ds ih =>
      intro cur
      have : motorReset {c with mu := some 0} bounds rvs pool d nZero cur =
          motorReset {c with mu := none} bounds rvs pool d nZero cur := by
        simp only [motorReset, motorInitialize, drawValues, meanOf, if_true]
      rw [motorResets, motorResets, this]
      split
      · rw [ih]
      · rw [ih]
  exact h draws _

/-! ## C68: every episode draws new initial values -/

/-- Uniform initialisation: two episodes whose random numbers differ at a state whose range is not a point start at
different values of that state. -/
theorem c68_uniform (c : Cfg K) (U : Dict K) (hc : c.dist = some .uniform) (hs : c.states = some U) (hne : U ≠ [])
    (hU : (U.map Prod.fst).Nodup) (hD : (c.defaults.map Prod.fst).Nodup)
    (bounds : List String → Except Err (List K × List K)) (b : List K × List K)
    (hb : bounds (writtenOrder U c.defaults) = .ok b) (h1 : b.1.length = (writtenOrder U c.defaults).length)
    (h2 : b.2.length = (writtenOrder U c.defaults).length)
    (rvs : Rvs K) (pool nZero : ℕ) (draws : List (List K))
    (hl : ∀ d ∈ draws, d.length = (writtenOrder U c.defaults).length)
    (e e' : ℕ) (d d' : List K) (hde : draws[e]? = some d) (hde' : draws[e']? = some d') (i : ℕ)
    (hd : d[i]? ≠ d'[i]?) (hrange : b.1[i]? ≠ b.2[i]?) :
    ∃ v v', (motorResets c bounds rvs pool nZero draws (motorInitial c))[e]? = some (.ok v) ∧
      (motorResets c bounds rvs pool nZero draws (motorInitial c))[e']? = some (.ok v') ∧ v[i]? ≠ v'[i]? := by
  have hs' : c.states.getD [] = U := by rw [hs]; rfl
  have hU' : ((c.states.getD []).map Prod.fst).Nodup := by rw [hs']; exact hU
  have hk : (merged c).map Prod.fst = writtenOrder U c.defaults := by
    rw [merged_keys c hU' hD, hs']; rfl
  have hml : (writtenOrder U c.defaults).length = (merged c).length := by rw [← hk]; simp
  have hdl := hl d (List.mem_of_getElem? hde)
  have hdl' := hl d' (List.mem_of_getElem? hde')
  rw [motorResets_eq c hU' hD (by rw [hs']; exact hne) _ _ _ _ _ _ (Or.inl rfl)]
  obtain ⟨v, hv, hvl, hvat⟩ := uniform_at c hU' hD hc bounds rvs pool d b
    (by rw [hk]; exact hb) (by rw [h1, hml]) (by rw [h2, hml]) (by rw [hdl, hml])
  obtain ⟨v', hv', hvl', hvat'⟩ := uniform_at c hU' hD hc bounds rvs pool d' b
    (by rw [hk]; exact hb) (by rw [h1, hml]) (by rw [h2, hml]) (by rw [hdl', hml])
  refine ⟨v, v', by rw [List.getElem?_map, hde, ← hv]; rfl, by rw [List.getElem?_map, hde', ← hv']; rfl, ?_⟩
  have hil : i < (merged c).length := by
    by_contra hcon
    apply hd
    rw [List.getElem?_eq_none (by omega), List.getElem?_eq_none (by omega)]
  have q1 : b.1[i]? = some (b.1[i]'(by omega)) := List.getElem?_eq_getElem _
  have q2 : b.2[i]? = some (b.2[i]'(by omega)) := List.getElem?_eq_getElem _
  have q3 : d[i]? = some (d[i]'(by omega)) := List.getElem?_eq_getElem _
  have q4 : d'[i]? = some (d'[i]'(by omega)) := List.getElem?_eq_getElem _
  rw [hvat i _ _ _ q1 q2 q3, hvat' i _ _ _ q1 q2 q4]
  rw [q3, q4] at hd
  rw [q1, q2] at hrange
  intro hcon
  simp only [Option.some.injEq, add_left_inj, ne_eq] at hcon hd hrange
  exact hd (mul_left_cancel₀ (sub_ne_zero.2 (Ne.symm hrange)) hcon)

/-- Normal initialisation: all episodes start with the same values, whatever the random generator does. -/
theorem c68_normal_violated (c : Cfg K) (U : Dict K) (hc : c.dist = some .normal) (hs : c.states = some U) (hne : U ≠ [])
    (hU : (U.map Prod.fst).Nodup) (hD : (c.defaults.map Prod.fst).Nodup)
    (bounds : List String → Except Err (List K × List K)) (rvs : Rvs K) (pool nZero : ℕ) (draws : List (List K))
    (r r' : Except Err (List K)) (hr : r ∈ motorResets c bounds rvs pool nZero draws (motorInitial c))
    (hr' : r' ∈ motorResets c bounds rvs pool nZero draws (motorInitial c)) : r = r' := by
  have hs' : c.states.getD [] = U := by rw [hs]; rfl
  have hU' : ((c.states.getD []).map Prod.fst).Nodup := by rw [hs']; exact hU
  rw [motorResets_eq c hU' hD (by rw [hs']; exact hne) _ _ _ _ _ _ (Or.inl rfl)] at hr hr'
  obtain ⟨d, _, hd⟩ := List.mem_map.1 hr
  obtain ⟨d', _, hd'⟩ := List.mem_map.1 hr'
  rw [← hd, ← hd']
  simp only [resetOnce, drawValues, hc]

/-! ## Concrete cases -/

/-- A permanent magnet synchronous motor with nominal currents 10 and angle π ≈ 3. -/
def exNominal : Dict ℚ := [("i_sd", 10), ("i_sq", 10), ("epsilon", 3)]
/-- Positions and lower ends of the state space of the example. -/
def exPositions : List (String × ℕ) := [("i_sd", 0), ("i_sq", 1), ("epsilon", 2)]

example : motorResets ⟨syncDefaults, some [("i_sq", 5), ("i_sd", -3), ("epsilon", 1)], none, none, none, none⟩
    (motorBounds exNominal exPositions [-1, -1, -1] none) (fun _ _ _ _ _ _ => []) 0 3 [[], []]
    (motorInitial ⟨syncDefaults, some [("i_sq", 5), ("i_sd", -3), ("epsilon", 1)], none, none, none, none⟩)
    = [.ok [5, -3, (1 : ℚ)], .ok [5, -3, 1]] := by decide +kernel

example : motorResets ⟨syncDefaults, some [("epsilon", 1)], none, none, none, none⟩
    (motorBounds exNominal exPositions [-1, -1, -1] none) (fun _ _ _ _ _ _ => []) 0 3 [[]]
    (motorInitial ⟨syncDefaults, some [("epsilon", 1)], none, none, none, none⟩)
    = [.ok [1, 0, (0 : ℚ)]] := by decide +kernel

example : motorResets ⟨dcDefaults, some [("i_a", 7)], none, none, none, none⟩
    (motorBounds [("i_a", 10), ("i_e", 2)] [("i_a", 0), ("i_e", 1)] [-1, 0] none) (fun _ _ _ _ _ _ => []) 0 2 [[]]
    (motorInitial ⟨dcDefaults, some [("i_a", 7)], none, none, none, none⟩)
    = [.ok [7, (0 : ℚ)]] := by decide +kernel

example : motorResets ⟨dcDefaults, some [("i_a", (11 : ℚ))], none, none, none, none⟩
    (motorBounds [("i_a", 10), ("i_e", 2)] [("i_a", 0), ("i_e", 1)] [-1, 0] none) (fun _ _ _ _ _ _ => []) 0 2 [[]]
    (motorInitial ⟨dcDefaults, some [("i_a", 11)], none, none, none, none⟩)
    = [.error .generic] := by decide +kernel

/-- Interval inside the nominal range. -/
example : motorResets ⟨dcDefaults, some [("i_a", 0), ("i_e", 0)], some [(-4, 20), (1, 2)], some .uniform, none, none⟩
    (motorBounds [("i_a", 10), ("i_e", 2)] [("i_a", 0), ("i_e", 1)] [-1, 0] (some [(-4, 20), (1, 2)]))
    (fun _ _ _ _ _ _ => []) 0 2 [[1/2, 1/2], [0, 1]]
    (motorInitial ⟨dcDefaults, some [("i_a", 0), ("i_e", 0)], some [(-4, 20), (1, 2)], some .uniform, none, none⟩)
    = [.ok [3, (3/2 : ℚ)], .ok [-4, 2]] := by decide +kernel

/-- Interval [50, 60] for a nominal current of 10: an initial current of 30. -/
example : motorResets ⟨[("i", 0)], some [("i", 0)], some [(50, 60)], some .uniform, none, none⟩
    (motorBounds [("i", 10)] [("i", 0)] [-1] (some [(50, 60)])) (fun _ _ _ _ _ _ => []) 0 1 [[1/2]]
    (motorInitial ⟨[("i", 0)], some [("i", 0)], some [(50, 60)], some .uniform, none, none⟩)
    = [.ok [(30 : ℚ)]] := by decide +kernel

/-- A generator that always returns the nearest admissible value to the mean meets `RvsSpec` up to the interval check, and
with interval [2, 6] and mean 0 the location passed to it is the midpoint 4, not 0. -/
example : motorResets ⟨[("i", 0)], some [("i", 0)], some [(2, 6)], some .normal, some 0, some 1⟩
    (motorBounds [("i", 10)] [("i", 0)] [-1] (some [(2, 6)])) (fun _ _ m _ _ _ => m) 0 1 [[], []]
    (motorInitial ⟨[("i", 0)], some [("i", 0)], some [(2, 6)], some .normal, some 0, some 1⟩)
    = [.ok [(4 : ℚ)], .ok [4]] := by decide +kernel

/-- `RvsSpec` can be met: return the lower truncation point. -/
example : RvsSpec (fun (a : List ℚ) _ m sg _ _ => List.zipWith (fun x y => x * sg + y) a m) := by
  intro a b m sg n pool hsg ha hb hm
  refine ⟨by simp [ha, hm], ?_⟩
  intro i ai bi mi x h1 h2 h3 h4 h5
  rw [zipWith_at _ _ _ _ _ _ h1 h3] at h5
  simp only [Option.some.injEq] at h5
  subst h5
  refine ⟨le_refl _, ?_⟩
  have := mul_le_mul_of_nonneg_right h4 hsg.le
  linarith

end GEM.Props
