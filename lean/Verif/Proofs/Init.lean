import Mathlib.Tactic.Linarith
import Mathlib.Tactic.Ring
import Mathlib.Data.List.Nodup
import Mathlib.Data.List.Basic
import Verif.Model.Init

/-! # Helper lemmas: dictionaries in insertion order, initial values -/

set_option linter.unusedSectionVars false

namespace GEM.Init

open GEM.Utils

section dict

variable {N V : Type*} [DecidableEq N]

theorem set_keys (d : List (N × V)) (k : N) (v : V) :
    (dictSet d k v).map Prod.fst = if k ∈ d.map Prod.fst then d.map Prod.fst else d.map Prod.fst ++ [k] := by
  unfold dictSet
  split
  · rw [List.map_map]
    apply List.map_congr_left
    intro p _
    by_cases hp : p.1 = k <;> simp [hp]
  · simp

theorem set_mem (d : List (N × V)) (k : N) (v : V) (k' : N) (v' : V) :
    (k', v') ∈ dictSet d k v ↔ (k' = k ∧ v' = v) ∨ (k' ≠ k ∧ (k', v') ∈ d) := by
  unfold dictSet
  split
  · rename_i h
    rw [List.mem_map]
    constructor
    · rintro ⟨p, hp, he⟩
      by_cases hpk : p.1 = k
      · rw [if_pos hpk] at he
        simp only [Prod.mk.injEq] at he
        left; exact ⟨he.1.symm, he.2.symm⟩
      · rw [if_neg hpk] at he
        subst he
        right; exact ⟨hpk, hp⟩
    · rintro (⟨rfl, rfl⟩ | ⟨hne, hm⟩)
      · obtain ⟨p, hp, rfl⟩ := List.mem_map.1 h
        exact ⟨p, hp, by simp⟩
      · exact ⟨(k', v'), hm, by simp [hne]⟩
  · rename_i h
    simp only [List.mem_append, List.mem_singleton, Prod.mk.injEq]
    constructor
    · rintro (hm | ⟨rfl, rfl⟩)
      · right
        refine ⟨?_, hm⟩
        rintro rfl
        exact h (List.mem_map.2 ⟨_, hm, rfl⟩)
      · left; exact ⟨rfl, rfl⟩
    · rintro (⟨rfl, rfl⟩ | ⟨_, hm⟩)
      · right; exact ⟨rfl, rfl⟩
      · left; exact hm

theorem upd_cons (d u : List (N × V)) (p : N × V) : dictUpdate d (p :: u) = dictUpdate (dictSet d p.1 p.2) u := rfl

theorem upd_keys (d u : List (N × V)) (hu : (u.map Prod.fst).Nodup) :
    (dictUpdate d u).map Prod.fst = d.map Prod.fst ++ (u.map Prod.fst).filter (fun k => k ∉ d.map Prod.fst) := by
  induction u generalizing d with
  | nil => simp [dictUpdate]
  | cons p u ih =>
    simp only [List.map_cons, List.nodup_cons] at hu
    rw [upd_cons, ih _ hu.2, set_keys]
    by_cases h : p.1 ∈ d.map Prod.fst
    · rw [if_pos h, List.map_cons, List.filter_cons_of_neg (by simpa using h)]
    · rw [if_neg h, List.map_cons, List.filter_cons_of_pos (by simpa using h)]
      rw [List.append_assoc, List.singleton_append]
      congr 2
      apply List.filter_congr
      intro k hk
      have : k ≠ p.1 := fun he => hu.1 (he ▸ hk)
      simp [this]

theorem upd_mem (d u : List (N × V)) (hu : (u.map Prod.fst).Nodup) (k : N) (v : V) :
    (k, v) ∈ dictUpdate d u ↔ (k, v) ∈ u ∨ (k ∉ u.map Prod.fst ∧ (k, v) ∈ d) := by
  induction u generalizing d with
  | nil => simp [dictUpdate]
  | cons p u ih =>
    simp only [List.map_cons, List.nodup_cons] at hu
    rw [upd_cons, ih _ hu.2, set_mem]
    obtain ⟨pk, pv⟩ := p
    simp only [List.mem_cons, Prod.mk.injEq, List.map_cons, not_or]
    constructor
    · rintro (h1 | ⟨h1, ⟨rfl, rfl⟩ | ⟨h2, h3⟩⟩)
      · exact Or.inl (Or.inr h1)
      · exact Or.inl (Or.inl ⟨rfl, rfl⟩)
      · exact Or.inr ⟨⟨h2, h1⟩, h3⟩
    · rintro ((⟨rfl, rfl⟩ | h1) | ⟨⟨h2, h1⟩, h3⟩)
      · exact Or.inr ⟨hu.1, Or.inl ⟨rfl, rfl⟩⟩
      · exact Or.inl h1
      · exact Or.inr ⟨h1, Or.inr ⟨h2, h3⟩⟩

theorem upd_nodup (d u : List (N × V)) (hd : (d.map Prod.fst).Nodup) (hu : (u.map Prod.fst).Nodup) :
    ((dictUpdate d u).map Prod.fst).Nodup := by
  rw [upd_keys d u hu]
  refine List.Nodup.append hd (hu.filter _) ?_
  intro k hk hk'
  simp only [List.mem_filter, decide_eq_true_eq] at hk'
  exact hk'.2 hk

/-- Two dictionaries with the same keys in the same order and the same items are equal. -/
theorem dict_ext (d e : List (N × V)) (hd : (d.map Prod.fst).Nodup) (hk : d.map Prod.fst = e.map Prod.fst)
    (hm : ∀ k v, (k, v) ∈ d → (k, v) ∈ e) : d = e := by
  induction d generalizing e with
  | nil => cases e <;> simp_all
  | cons p d ih =>
    cases e with
    | nil => simp at hk
    | cons q e =>
      simp only [List.map_cons, List.cons.injEq] at hk
      simp only [List.map_cons, List.nodup_cons] at hd
      obtain ⟨pk, pv⟩ := p
      obtain ⟨qk, qv⟩ := q
      simp only at hk hd
      obtain ⟨rfl, hk⟩ := hk
      have h1 : pv = qv := by
        have := hm pk pv (by simp)
        simp only [List.mem_cons, Prod.mk.injEq, true_and] at this
        rcases this with h | h
        · exact h
        · exfalso; apply hd.1; rw [hk]; exact List.mem_map.2 ⟨_, h, rfl⟩
      subst h1
      congr 1
      apply ih e hd.2 hk
      intro k v hkv
      have := hm k v (by simp [hkv])
      simp only [List.mem_cons, Prod.mk.injEq] at this
      rcases this with ⟨rfl, rfl⟩ | h
      · exfalso; apply hd.1; exact List.mem_map.2 ⟨_, hkv, rfl⟩
      · exact h

theorem upd_nil (u : List (N × V)) (hu : (u.map Prod.fst).Nodup) : dictUpdate [] u = u := by
  apply dict_ext
  · exact upd_nodup _ _ (by simp) hu
  · rw [upd_keys _ _ hu]; simp
  · intro k v h
    rw [upd_mem _ _ hu] at h
    simpa using h

/-- Updating with values for exactly the existing keys, in order. -/
theorem upd_zip (d : List (N × V)) (vals : List V) (hd : (d.map Prod.fst).Nodup) (hl : vals.length = d.length) :
    dictUpdate d (List.zip (d.map Prod.fst) vals) = List.zip (d.map Prod.fst) vals := by
  have hz : (List.zip (d.map Prod.fst) vals).map Prod.fst = d.map Prod.fst := by
    rw [List.map_fst_zip]; simp [hl]
  have hzn : ((List.zip (d.map Prod.fst) vals).map Prod.fst).Nodup := by rw [hz]; exact hd
  apply dict_ext
  · exact upd_nodup _ _ hd hzn
  · rw [upd_keys _ _ hzn, hz]
    simp
  · intro k v h
    rw [upd_mem _ _ hzn, hz] at h
    rcases h with h | ⟨h1, h2⟩
    · exact h
    · exact absurd (List.mem_map.2 ⟨_, h2, rfl⟩) h1

end dict

variable {K : Type} [Field K] [LinearOrder K]

theorem writeBack_spec (cur : Dict K) (vals : List K) (hd : (cur.map Prod.fst).Nodup) (hl : vals.length = cur.length) :
    (writeBack cur vals).map Prod.fst = cur.map Prod.fst ∧ (writeBack cur vals).map Prod.snd = vals := by
  unfold writeBack
  rw [upd_zip cur vals hd hl]
  constructor
  · rw [List.map_fst_zip]; simp [hl]
  · rw [List.map_snd_zip]; simp [hl]

theorem zip_sublist {A B : Type*} (xs : List A) (ys : List B) : ((List.zip xs ys).map Prod.fst).Sublist xs := by
  induction xs generalizing ys with
  | nil => simp
  | cons x xs ih => cases ys <;> simp [ih]

theorem writeBack_keys (cur : Dict K) (vals : List K) (hd : (cur.map Prod.fst).Nodup) :
    (writeBack cur vals).map Prod.fst = cur.map Prod.fst := by
  unfold writeBack
  have hs : ((List.zip (cur.map Prod.fst) vals).map Prod.fst).Sublist (cur.map Prod.fst) := by
    exact zip_sublist _ _
  rw [upd_keys _ _ (hd.sublist hs)]
  have : ((List.zip (cur.map Prod.fst) vals).map Prod.fst).filter (fun k => k ∉ cur.map Prod.fst) = [] := by
    rw [List.filter_eq_nil_iff]
    intro k hk
    have := hs.subset hk
    simpa using this
  rw [this, List.append_nil]

theorem writeBack_same (cur : Dict K) (hd : (cur.map Prod.fst).Nodup) : writeBack cur (cur.map Prod.snd) = cur := by
  unfold writeBack
  rw [upd_zip cur _ hd (by simp)]
  clear hd
  induction cur with
  | nil => rfl
  | cons p cur ih => simp [ih]

/-- The dictionary `initialize` works with, before values are drawn. -/
def merged (c : Cfg K) : Dict K := dictUpdate (dictUpdate (c.states.getD []) c.defaults) (c.states.getD [])

section merged

variable (c : Cfg K) (hU : ((c.states.getD []).map Prod.fst).Nodup) (hD : (c.defaults.map Prod.fst).Nodup)

include hU hD

theorem merged_keys : (merged c).map Prod.fst = (c.states.getD []).map Prod.fst ++
    (c.defaults.map Prod.fst).filter (fun k => k ∉ (c.states.getD []).map Prod.fst) := by
  unfold merged
  rw [upd_keys _ _ hU, upd_keys _ _ hD]
  simp
  intro a x h h2
  exact absurd h (h2 x)

theorem merged_nodup : ((merged c).map Prod.fst).Nodup := upd_nodup _ _ (upd_nodup _ _ hU hD) hU

theorem merged_mem (k : String) (v : K) : (k, v) ∈ merged c ↔
    (k, v) ∈ c.states.getD [] ∨ (k ∉ (c.states.getD []).map Prod.fst ∧ (k, v) ∈ c.defaults) := by
  unfold merged
  rw [upd_mem _ _ hU, upd_mem _ _ hD]
  constructor
  · rintro (h | ⟨h1, h2 | ⟨_, h3⟩⟩)
    · exact Or.inl h
    · exact Or.inr ⟨h1, h2⟩
    · exact absurd (List.mem_map.2 ⟨_, h3, rfl⟩) h1
  · rintro (h | ⟨h1, h2⟩)
    · exact Or.inl h
    · exact Or.inr ⟨h1, Or.inl h2⟩

theorem merged_of_keys (cur : Dict K) (h : cur.map Prod.fst = (merged c).map Prod.fst) :
    dictUpdate (dictUpdate cur c.defaults) (c.states.getD []) = merged c := by
  have hn := merged_nodup c hU hD
  have hcur : (cur.map Prod.fst).Nodup := h ▸ hn
  apply dict_ext
  · exact upd_nodup _ _ (upd_nodup _ _ hcur hD) hU
  · rw [upd_keys _ _ hU, upd_keys _ _ hD, h]
    have e1 : (c.defaults.map Prod.fst).filter (fun k => k ∉ (merged c).map Prod.fst) = [] := by
      rw [List.filter_eq_nil_iff]
      intro k hk
      rw [merged_keys c hU hD]
      simp only [List.mem_append, List.mem_filter, decide_eq_true_eq, not_or, not_and, not_not, not_forall]
      intro h1
      exact ⟨hk, h1⟩
    have e2 : ((c.states.getD []).map Prod.fst).filter (fun k => k ∉ (merged c).map Prod.fst ++ []) = [] := by
      rw [List.filter_eq_nil_iff]
      intro k hk
      rw [merged_keys c hU hD]
      simp only [List.append_nil, List.mem_append, decide_eq_true_eq, not_or, not_and, not_not]
      intro h1
      exact absurd hk h1
    rw [e1, e2]; simp
  · intro k v hm
    rw [merged_mem c hU hD]
    rw [upd_mem _ _ hU, upd_mem _ _ hD] at hm
    rcases hm with h1 | ⟨h1, h2 | ⟨h3, h4⟩⟩
    · exact Or.inl h1
    · exact Or.inr ⟨h1, h2⟩
    · exfalso
      have : k ∈ cur.map Prod.fst := List.mem_map.2 ⟨_, h4, rfl⟩
      rw [h, merged_keys c hU hD] at this
      simp only [List.mem_append, List.mem_filter] at this
      rcases this with h5 | h5
      · exact h1 h5
      · exact h3 h5.1

/-- One initialisation, whatever the history of values was. -/
theorem motorInitialize_eq (bounds : List String → Except Err (List K × List K)) (rvs : Rvs K) (pool : ℕ)
    (draws : List K) (cur : Dict K)
    (h : cur = motorInitial c ∨ cur.map Prod.fst = (merged c).map Prod.fst) :
    motorInitialize c bounds rvs pool draws cur = (bounds ((merged c).map Prod.fst) >>= fun b =>
      drawValues c rvs pool draws b.1 b.2 (merged c) >>= fun vals => .ok (writeBack (merged c) vals)) := by
  have : dictUpdate (dictUpdate cur c.defaults) (c.states.getD []) = merged c := by
    rcases h with rfl | h
    · unfold motorInitial merged; rw [upd_nil _ hU]
    · exact merged_of_keys c hU hD cur h
  unfold motorInitialize
  simp only [this]

/-- What a reset returns, in terms of the merged dictionary only. -/
def resetOnce (c : Cfg K) (bounds : List String → Except Err (List K × List K)) (rvs : Rvs K) (pool : ℕ)
    (draws : List K) : Except Err (List K) :=
  bounds ((merged c).map Prod.fst) >>= fun b =>
    drawValues c rvs pool draws b.1 b.2 (merged c) >>= fun vals => .ok ((writeBack (merged c) vals).map Prod.snd)

/-- Every episode of a motor with named initial states: nothing is carried over from earlier episodes. -/
theorem motorResets_eq (hne : c.states.getD [] ≠ []) (bounds : List String → Except Err (List K × List K)) (rvs : Rvs K)
    (pool nZero : ℕ) (draws : List (List K)) (cur : Dict K)
    (h : cur = motorInitial c ∨ cur.map Prod.fst = (merged c).map Prod.fst) :
    motorResets c bounds rvs pool nZero draws cur = draws.map (resetOnce c bounds rvs pool) := by
  have hemp : ¬ (c.states.getD []).isEmpty = true := by simpa using hne
  induction draws generalizing cur with
  | nil => rfl
  | cons d ds ih =>
    have hr : motorReset c bounds rvs pool d nZero cur = (motorInitialize c bounds rvs pool d cur >>= fun cur' =>
        .ok (cur', cur'.map Prod.snd)) := by
      unfold motorReset; rw [if_neg hemp]
    rw [motorInitialize_eq c hU hD _ _ _ _ _ h] at hr
    rw [motorResets, List.map_cons, hr, resetOnce]
    cases hb : bounds ((merged c).map Prod.fst) with
    | error e =>
      simp only [bind, Except.bind]
      rw [ih cur h]
    | ok b =>
      simp only [bind, Except.bind]
      cases hv : drawValues c rvs pool d b.1 b.2 (merged c) with
      | error e => simp only; rw [ih cur h]
      | ok vals => simp only; rw [ih _ (Or.inr (writeBack_keys _ _ (merged_nodup c hU hD)))]

end merged

/-- Value at a position of the merged dictionary. -/
theorem value_at (d : Dict K) (hd : (d.map Prod.fst).Nodup) (i : ℕ) (k : String) (v : K)
    (hi : (d.map Prod.fst)[i]? = some k) (hm : (k, v) ∈ d) : (d.map Prod.snd)[i]? = some v := by
  induction d generalizing i with
  | nil => simp at hi
  | cons p d ih =>
    obtain ⟨pk, pv⟩ := p
    simp only [List.map_cons, List.nodup_cons] at hd
    cases i with
    | zero =>
      simp only [List.map_cons, List.getElem?_cons_zero, Option.some.injEq] at hi ⊢
      subst hi
      simp only [List.mem_cons, Prod.mk.injEq, true_and] at hm
      rcases hm with h | h
      · exact h.symm
      · exact absurd (List.mem_map.2 ⟨_, h, rfl⟩) hd.1
    | succ i =>
      simp only [List.map_cons, List.getElem?_cons_succ] at hi ⊢
      apply ih hd.2 i hi
      simp only [List.mem_cons, Prod.mk.injEq] at hm
      rcases hm with ⟨rfl, rfl⟩ | h
      · exact absurd (List.mem_of_getElem? hi) hd.1
      · exact h

theorem bzip_ok (f : K → K → K) (xs ys : List K) (h : xs.length = ys.length) : bzip f xs ys = .ok (List.zipWith f xs ys) := by
  unfold bzip; rw [if_pos h]

/-- Entries of a successful `mapM`. -/
theorem mapM_ok {A B : Type} (f : A → Except Err B) (l : List A) (r : List B) (h : l.mapM f = .ok r) :
    r.length = l.length ∧ ∀ (i : ℕ) (a : A), l[i]? = some a → ∃ b, f a = .ok b ∧ r[i]? = some b := by
  induction l generalizing r with
  | nil =>
    simp only [List.mapM_nil, pure, Except.pure, Except.ok.injEq] at h
    subst h; simp
  | cons a l ih =>
    rw [List.mapM_cons] at h
    simp only [bind, Except.bind, pure, Except.pure] at h
    cases ha : f a with
    | error e => rw [ha] at h; simp at h
    | ok b =>
      rw [ha] at h
      cases hl : l.mapM f with
      | error e => rw [hl] at h; simp at h
      | ok r' =>
        rw [hl] at h
        simp only [Except.ok.injEq] at h
        subst h
        obtain ⟨h1, h2⟩ := ih r' hl
        refine ⟨by simp [h1], ?_⟩
        intro i x hi
        cases i with
        | zero => simp only [List.getElem?_cons_zero, Option.some.injEq] at hi; subst hi; exact ⟨b, ha, by simp⟩
        | succ i => simpa using h2 i x (by simpa using hi)

theorem bind_ok {A B : Type} {x : Except Err A} {f : A → Except Err B} {b : B} (h : (x >>= f) = .ok b) :
    ∃ a, x = .ok a ∧ f a = .ok b := by
  cases x with
  | error e => simp [bind, Except.bind] at h
  | ok a => exact ⟨a, rfl, h⟩

theorem zipWith_at (f : K → K → K) (xs ys : List K) (i : ℕ) (x y : K) (hx : xs[i]? = some x) (hy : ys[i]? = some y) :
    (List.zipWith f xs ys)[i]? = some (f x y) := by
  rw [List.getElem?_zipWith, hx, hy]

theorem ball_ok (xs ys : List K) (h : xs.length = ys.length) :
    ∃ b, ball xs ys = .ok b ∧ (b = true ↔ ∀ (i : ℕ) (x y : K), xs[i]? = some x → ys[i]? = some y → x ≤ y) := by
  unfold ball
  rw [bzip_ok _ _ _ h]
  refine ⟨_, rfl, ?_⟩
  rw [List.all_eq_true]
  constructor
  · intro hall i x y hx hy
    have := hall _ (List.mem_of_getElem? (zipWith_at _ xs ys i x y hx hy))
    simp only [decide_eq_true_eq] at this
    by_contra hn
    rw [if_neg hn] at this
    exact zero_ne_one this
  · intro hall b hb
    obtain ⟨i, hi⟩ := List.mem_iff_getElem?.1 hb
    rw [List.getElem?_zipWith] at hi
    split at hi
    · rename_i x y hx hy
      simp only [Option.some.injEq] at hi
      rw [if_pos (hall i x y hx hy)] at hi
      simp [← hi]
    · simp at hi

/-- The bounds of DC and synchronous motors, state by state. -/
theorem motorBounds_at (nominal : Dict K) (positions : List (String × ℕ)) (low : List K) (iv : List (K × K))
    (keys : List String) (b : List K × List K) (hiv : iv.length = keys.length)
    (h : motorBounds nominal positions low (some iv) keys = .ok b) :
    b.1.length = keys.length ∧ b.2.length = keys.length ∧
    ∀ (i : ℕ) (k : String), keys[i]? = some k → ∃ (n : K) (j : ℕ) (s : K) (p : K × K), lookup nominal k = some n ∧ lookup positions k = some j ∧ low[j]? = some s ∧
      iv[i]? = some p ∧ b.1[i]? = some (max (n * s) p.1) ∧ b.2[i]? = some (min n p.2) := by
  unfold motorBounds at h
  obtain ⟨upper, hup, h⟩ := bind_ok h
  obtain ⟨idx, hidx, h⟩ := bind_ok h
  obtain ⟨lows, hlows, h⟩ := bind_ok h
  obtain ⟨lower, hlower, h⟩ := bind_ok h
  obtain ⟨u1, u2⟩ := mapM_ok _ _ _ hup
  obtain ⟨x1, x2⟩ := mapM_ok _ _ _ hidx
  obtain ⟨l1, l2⟩ := mapM_ok _ _ _ hlows
  rw [bzip_ok _ _ _ (by rw [u1, l1, x1])] at hlower
  simp only [Except.ok.injEq] at hlower
  have hll : lower.length = keys.length := by rw [← hlower]; simp [u1, l1, x1]
  unfold clipBounds at h
  simp only at h
  rw [bzip_ok _ _ _ (by simp [hll, hiv]), bzip_ok _ _ _ (by simp [u1, hiv])] at h
  simp only [bind, Except.bind, Except.ok.injEq] at h
  subst h
  refine ⟨by simp [hll, hiv], by simp [u1, hiv], ?_⟩
  intro i k hk
  obtain ⟨n, hn, hn'⟩ := u2 i k hk
  obtain ⟨j, hj, hj'⟩ := x2 i k hk
  obtain ⟨s, hs, hs'⟩ := l2 i j hj'
  have hik : i < keys.length := (List.getElem?_eq_some_iff.1 hk).1
  obtain ⟨p, hp⟩ : ∃ p, iv[i]? = some p := ⟨iv[i]'(by omega), List.getElem?_eq_getElem (by omega)⟩
  have hlo : lower[i]? = some (n * s) := by rw [← hlower]; exact zipWith_at _ _ _ _ _ _ hn' hs'
  refine ⟨n, j, s, p, ?_, ?_, ?_, hp, ?_, ?_⟩
  · unfold get at hn
    cases hq : lookup nominal k with
    | none => rw [hq] at hn; simp at hn
    | some v => rw [hq] at hn; simpa using hn
  · cases hq : lookup positions k with
    | none => rw [hq] at hj; simp at hj
    | some v => rw [hq] at hj; simpa using hj
  · cases hq : low[j]? with
    | none => rw [hq] at hs; simp at hs
    | some v => rw [hq] at hs; simpa using hs
  · exact zipWith_at _ _ _ _ _ _ hlo (by rw [List.getElem?_map, hp]; rfl)
  · exact zipWith_at _ _ _ _ _ _ hn' (by rw [List.getElem?_map, hp]; rfl)

/-- A uniformly initialised reset, state by state. -/
theorem uniform_at (c : Cfg K) (hU : ((c.states.getD []).map Prod.fst).Nodup) (hD : (c.defaults.map Prod.fst).Nodup)
    (hc : c.dist = some .uniform) (bounds : List String → Except Err (List K × List K)) (rvs : Rvs K) (pool : ℕ)
    (draws : List K) (b : List K × List K) (hb : bounds ((merged c).map Prod.fst) = .ok b)
    (h1 : b.1.length = (merged c).length) (h2 : b.2.length = (merged c).length) (h3 : draws.length = (merged c).length) :
    ∃ v, resetOnce c bounds rvs pool draws = .ok v ∧ v.length = (merged c).length ∧
      ∀ (i : ℕ) (l u d : K), b.1[i]? = some l → b.2[i]? = some u → draws[i]? = some d → v[i]? = some ((u - l) * d + l) := by
  unfold resetOnce
  rw [hb]
  simp only [bind, Except.bind, drawValues, hc]
  rw [bzip_ok _ _ _ (by rw [h1, h2])]
  simp only
  rw [bzip_ok _ _ _ (by simp [h1, h2, h3])]
  simp only
  rw [bzip_ok _ _ _ (by simp [h1, h2, h3])]
  simp only
  refine ⟨_, rfl, ?_, ?_⟩
  · rw [List.length_map, ← List.length_map (f := Prod.fst), writeBack_keys _ _ (merged_nodup c hU hD), List.length_map]
  · intro i l u d hl hu hd
    rw [(writeBack_spec _ _ (merged_nodup c hU hD) (by simp [h1, h2, h3])).2]
    exact zipWith_at _ _ _ _ _ _ (zipWith_at _ _ _ _ _ _ (zipWith_at _ _ _ _ _ _ hu hl) hd) hl

end GEM.Init
