import Mathlib.Algebra.Order.Field.Basic
import Mathlib.Algebra.Order.Ring.Rat
import Mathlib.Tactic.NormNum
import Verif.Proofs.Limits
import Verif.Proofs.Motors

/-!
# Properties of limits and nominal values (C69)

`lookup d k` is Python's `d.get(k)`.
-/

set_option linter.unusedSectionVars false

namespace GEM.Props

open GEM.Init GEM.Utils GEM.Limits

variable {K : Type} [Field K] [LinearOrder K]

/-! ## What the user gives is kept -/

/-- Synchronous and induction motors: every non-zero limit and every non-zero nominal value given by the user is the limit
or nominal value of the motor. -/
theorem c69_keeps_ac (defL defN : Dict K) (ios : List (String × String)) (r : K) (tl : Dict K → Dict K → Except Err K)
    (uL uN : Dict K) (res : Dict K × Dict K) (hdl : (defL.map Prod.fst).Nodup)
    (hul : (uL.map Prod.fst).Nodup) (h : acLimits defL defN ios r tl uL uN = .ok res) (k : String) (x : K) (hx : x ≠ 0) :
    (lookup uL k = some x → lookup res.1 k = some x) ∧ (lookup uN k = some x → lookup res.2 k = some x) := by
  obtain ⟨l, n, omega, a, t, hl, hn, _, ha, _, rfl⟩ := acLimits_ok _ _ _ _ _ _ _ _ h
  have hln := merge_nodup _ _ _ hdl hul hl
  have han : (a.1.map Prod.fst).Nodup := by
    unfold ioAgenda at ha
    obtain ⟨_, _, ha⟩ := bind_ok ha
    obtain ⟨_, _, ha⟩ := bind_ok ha
    exact ioLoop_nodup _ _ _ _ _ _ _ _ ha (by simp)
  constructor
  · intro hk
    have h0 : lookup l k = some x := by rw [(mergeUser_ok _ _ _ hl).2, hk]; rfl
    exact base_keeps _ _ _ _ _ _ _ (by simp) (base_keeps _ _ _ _ _ _ _ han h0 hx) hx
  · intro hk
    have h0 : lookup n k = some x := by rw [(mergeUser_ok _ _ _ hn).2, hk]; rfl
    exact base_keeps_nominal _ _ _ _ _ _ _ (base_nodup _ _ _ _ _ hln) (base_keeps_nominal _ _ _ _ _ _ _ hln h0 hx) hx

/-- The four constructors of DC motors. -/
inductive DcKind
  | extEx
  | shunt
  | series
  | permEx

/-- Limits and nominal values of a constructed DC motor of any of the four classes. -/
def dcLimits (kind : DcKind) (ra re : K) (torque : List K → K) (uL uN : Dict K) : Except Err (Dict K × Dict K) :=
  match kind with
  | .extEx => extExLimits ra re torque uL uN
  | .shunt => shuntLimits ra re torque uL uN
  | .series => seriesLimits ra re torque uL uN
  | .permEx => permExLimits ra torque uL uN

/-- What all four constructions have in common. -/
theorem dcLimits_ok (kind : DcKind) (ra re : K) (torque : List K → K) (uL uN : Dict K) (res : Dict K × Dict K)
    (h : dcLimits kind ra re torque uL uN = .ok res) (hul : (uL.map Prod.fst).Nodup) :
    ∃ (l n a : Dict K) (cs : List String) (is : List K), (∀ k, ∃ d, lookup l k = (lookup uL k).or d) ∧ (∀ k, ∃ d, lookup n k = (lookup uN k).or d) ∧
      (l.map Prod.fst).Nodup ∧ (a.map Prod.fst).Nodup ∧
      cs.mapM (Init.get l) = .ok is ∧ res = updateBase 400 l n (dictSet a "torque" (torque is)) [] := by
  cases kind with
  | extEx =>
    unfold dcLimits extExLimits at h
    obtain ⟨l, hl, h⟩ := bind_ok h
    obtain ⟨n, hn, h⟩ := bind_ok h
    obtain ⟨ia, _, h⟩ := bind_ok h
    obtain ⟨ie, _, h⟩ := bind_ok h
    obtain ⟨is, hi, hr⟩ := updateDc_ok _ _ _ _ _ _ _ h
    exact ⟨l, n, _, _, is, fun k => ⟨_, (mergeUser_ok _ _ _ hl).2 k⟩, fun k => ⟨_, (mergeUser_ok _ _ _ hn).2 k⟩,
      merge_nodup _ _ _ (by simp [dcDefLimits]) hul hl, by simp, hi, hr⟩
  | shunt =>
    unfold dcLimits shuntLimits at h
    obtain ⟨l, hl, h⟩ := bind_ok h
    obtain ⟨n, hn, h⟩ := bind_ok h
    obtain ⟨ia, _, h⟩ := bind_ok h
    obtain ⟨ie, _, h⟩ := bind_ok h
    obtain ⟨is, hi, hr⟩ := updateDc_ok _ _ _ _ _ _ _ h
    exact ⟨l, n, _, _, is, fun k => ⟨_, (mergeUser_ok _ _ _ hl).2 k⟩, fun k => ⟨_, (mergeUser_ok _ _ _ hn).2 k⟩,
      merge_nodup _ _ _ (by simp [dcDefLimits]) hul hl, by simp, hi, hr⟩
  | series =>
    unfold dcLimits seriesLimits at h
    obtain ⟨l, hl, h⟩ := bind_ok h
    obtain ⟨n, hn, h⟩ := bind_ok h
    obtain ⟨u, _, h⟩ := bind_ok h
    obtain ⟨is, hi, hr⟩ := updateDc_ok _ _ _ _ _ _ _ h
    exact ⟨l, n, _, _, is, fun k => ⟨_, (mergeUser_ok _ _ _ hl).2 k⟩, fun k => ⟨_, (mergeUser_ok _ _ _ hn).2 k⟩,
      merge_nodup _ _ _ (by simp [dcDefLimits]) hul hl, by simp, hi, hr⟩
  | permEx =>
    unfold dcLimits permExLimits at h
    obtain ⟨l, hl, h⟩ := bind_ok h
    obtain ⟨n, hn, h⟩ := bind_ok h
    obtain ⟨u, _, h⟩ := bind_ok h
    obtain ⟨is, hi, hr⟩ := updateDc_ok _ _ _ _ _ _ _ h
    exact ⟨l, n, _, _, is, fun k => ⟨_, (mergeUser_ok _ _ _ hl).2 k⟩, fun k => ⟨_, (mergeUser_ok _ _ _ hn).2 k⟩,
      merge_nodup _ _ _ (by simp) hul hl, by simp, hi, hr⟩

/-- The same for the DC motors. -/
theorem c69_keeps_dc (kind : DcKind) (ra re : K) (torque : List K → K) (uL uN : Dict K) (res : Dict K × Dict K)
    (h : dcLimits kind ra re torque uL uN = .ok res) (hul : (uL.map Prod.fst).Nodup) (k : String) (x : K) (hx : x ≠ 0) :
    (lookup uL k = some x → lookup res.1 k = some x) ∧ (lookup uN k = some x → lookup res.2 k = some x) := by
  obtain ⟨l, n, a, cs, is, e1, e2, hl, ha, _, rfl⟩ := dcLimits_ok kind ra re torque uL uN res h hul
  constructor
  · intro hk
    obtain ⟨d, hd⟩ := e1 k
    exact base_keeps _ _ _ _ _ _ _ (set_nodup _ _ _ ha) (by rw [hd, hk]; rfl) hx
  · intro hk
    obtain ⟨d, hd⟩ := e2 k
    exact base_keeps_nominal _ _ _ _ _ _ _ hl (by rw [hd, hk]; rfl) hx

/-- Every limit has a nominal value, which is only zero if the limit is. -/
theorem c69_complete_ac (defL defN : Dict K) (ios : List (String × String)) (r : K) (tl : Dict K → Dict K → Except Err K)
    (uL uN : Dict K) (res : Dict K × Dict K) (hdl : (defL.map Prod.fst).Nodup) (hul : (uL.map Prod.fst).Nodup)
    (h : acLimits defL defN ios r tl uL uN = .ok res) (k : String) (x : K) (hk : lookup res.1 k = some x) :
    ∃ y, lookup res.2 k = some y ∧ (y = 0 → x = 0) := by
  obtain ⟨l, n, omega, a, t, hl, hn, _, ha, _, rfl⟩ := acLimits_ok _ _ _ _ _ _ _ _ h
  exact base_complete _ _ _ _ (base_nodup _ _ _ _ _ (merge_nodup _ _ _ hdl hul hl)) k x hk

/-- The same for the DC motors. -/
theorem c69_complete_dc (kind : DcKind) (ra re : K) (torque : List K → K) (uL uN : Dict K) (res : Dict K × Dict K)
    (h : dcLimits kind ra re torque uL uN = .ok res) (hul : (uL.map Prod.fst).Nodup) (k : String) (x : K)
    (hk : lookup res.1 k = some x) : ∃ y, lookup res.2 k = some y ∧ (y = 0 → x = 0) := by
  obtain ⟨l, n, a, cs, is, _, _, hl, _, _, rfl⟩ := dcLimits_ok kind ra re torque uL uN res h hul
  exact base_complete _ _ _ _ hl k x hk

/-! ## Specific quantities follow the general ones -/

/-- Whenever an AC motor can be constructed, the limit of each input current that has no default of its own is the general
current limit, and that of each input voltage half the general voltage limit. The same holds for the nominal values (if the
nominal voltage is not zero). -/
theorem c69_general_ac [IsStrictOrderedRing K] (defL defN : Dict K) (q0 : String × String) (ios : List (String × String)) (r : K)
    (tl : Dict K → Dict K → Except Err K) (uL uN : Dict K) (res : Dict K × Dict K)
    (hdl : (defL.map Prod.fst).Nodup) (hul : (uL.map Prod.fst).Nodup)
    (h : acLimits defL defN (q0 :: ios) r tl uL uN = .ok res)
    (hu0 : lookup defL q0.1 = none) (hn0 : lookup defN q0.1 = none)
    (hdis : ∀ p ∈ q0 :: ios, ∀ q ∈ q0 :: ios, p.1 ≠ q.2)
    (hun : ∀ x, (lookup uN "u").or (lookup defN "u") = some x → x ≠ 0)
    (hnames : ∀ q ∈ q0 :: ios, q.1 ≠ "omega" ∧ q.2 ≠ "omega" ∧ q.1 ≠ "torque" ∧ q.2 ≠ "torque" ∧ q.1 ≠ "u" ∧ q.2 ≠ "u" ∧
      q.1 ≠ "i" ∧ q.2 ≠ "i")
    (q : String × String) (hq : q ∈ q0 :: ios) (hf1 : lookup defL q.1 = none) (hf2 : lookup defL q.2 = none)
    (hf3 : lookup defN q.1 = none) (hf4 : lookup defN q.2 = none) :
    lookup res.1 q.2 = lookup res.1 "i" ∧ lookup res.1 q.1 = (lookup res.1 "u").map (fun u => 1 / 2 * u) ∧
    lookup res.2 q.2 = lookup res.2 "i" ∧ lookup res.2 q.1 = (lookup res.2 "u").map (fun u => 1 / 2 * u) := by
  obtain ⟨l, n, omega, a, t, hl, hn, _, ha, _, rfl⟩ := acLimits_ok _ _ _ _ _ _ _ _ h
  have hln := merge_nodup _ _ _ hdl hul hl
  have hnu := (mergeUser_ok _ _ _ hn).2
  unfold ioAgenda at ha
  obtain ⟨ul, hul', ha⟩ := bind_ok ha
  obtain ⟨un, hun', ha⟩ := bind_ok ha
  have get_some : ∀ (d : Dict K) (k : String) (v : K), Init.get d k = .ok v → lookup d k = some v := by
    intro d k v hd
    unfold Init.get at hd
    cases hq : lookup d k with
    | none => rw [hq] at hd; simp at hd
    | some w => rw [hq] at hd; simpa using hd
  have eul := get_some _ _ _ hul'
  have eun := get_some _ _ _ hun'
  have hun0 : un ≠ 0 := hun un (by rw [← hnu]; exact eun)
  have hl1 := merge_keys _ _ _ hl q0.1 hu0
  have hn1 := merge_keys _ _ _ hn q0.1 hn0
  have hml : ¬ Missing l "i" := by
    intro hm
    rw [ioLoop_missing _ _ _ _ _ _ _ _ hm hl1] at ha
    simp at ha
  have hmn : ¬ Missing n "i" := by
    intro hm
    rw [ioLoop_missing_nominal _ _ _ _ _ _ _ _ hml hm hn1] at ha
    simp at ha
  have some_of : ∀ (d : Dict K), ¬ Missing d "i" → ∃ x, lookup d "i" = some x ∧ x ≠ 0 := by
    intro d hd
    unfold Missing at hd
    cases hq : lookup d "i" with
    | none => rw [hq] at hd; simp at hd
    | some w => rw [hq] at hd; exact ⟨w, rfl, by simpa using hd⟩
  obtain ⟨x, hx, hx0⟩ := some_of l hml
  obtain ⟨y, hy, hy0⟩ := some_of n hmn
  obtain ⟨b, hb, nb1, nb2, b1, b2⟩ := ioLoop_ok l n r (1 / 2 * ul) (1 / 2 * un) x y hx hx0 hy hy0 (q0 :: ios) ([], []) hdis
    (by simp) (by simp)
  rw [hb] at ha
  simp only [Except.ok.injEq] at ha
  subst ha
  obtain ⟨c1, c2, c3, c4, c5, c6, c7, c8⟩ := hnames q hq
  have m1 : q.1 ∈ (q0 :: ios).map Prod.fst := List.mem_map.2 ⟨q, hq, rfl⟩
  have m2 : q.2 ∈ (q0 :: ios).map Prod.snd := List.mem_map.2 ⟨q, hq, rfl⟩
  have m3 : q.1 ∉ (q0 :: ios).map Prod.snd := by
    intro hm
    obtain ⟨p, hp, he⟩ := List.mem_map.1 hm
    exact hdis q hq p hp he.symm
  have m4 : "u" ∉ (q0 :: ios).map Prod.snd := by
    intro hm
    obtain ⟨p, hp, he⟩ := List.mem_map.1 hm
    exact (hnames p hp).2.2.2.2.2.1 he
  have m5 : "u" ∉ (q0 :: ios).map Prod.fst := by
    intro hm
    obtain ⟨p, hp, he⟩ := List.mem_map.1 hm
    exact (hnames p hp).2.2.2.2.1 he
  have miss : ∀ (d : Dict K) (k : String), lookup d k = none → Missing d k := by
    intro d k hk; unfold Missing; rw [hk]; rfl
  have second : ∀ (L N : Dict K) (k : String), k ≠ "omega" → k ≠ "torque" →
      lookup (updateBase omega L N [("torque", t)] []).1 k = lookup L k := by
    intro L N k h1 h2
    rw [base_lookup _ _ _ _ _ (by simp)]
    split
    · simp [Ne.symm h2, lookup_cons, lookup_nil]
    · rfl
  have f1 : lookup (updateBase omega l n b.1 b.2).1 q.2 = some x := by
    rw [base_lookup _ _ _ _ _ nb1, if_pos (miss _ _ (merge_keys _ _ _ hl _ hf2)), if_neg c2, b1, if_pos m2]; rfl
  have f2 : lookup (updateBase omega l n b.1 b.2).1 q.1 = some (1 / 2 * ul) := by
    rw [base_lookup _ _ _ _ _ nb1, if_pos (miss _ _ (merge_keys _ _ _ hl _ hf1)), if_neg c1, b1, if_neg m3, if_pos m1]; rfl
  have f3 : lookup (updateBase omega l n b.1 b.2).1 "u" = some ul := by
    rw [base_lookup _ _ _ _ _ nb1, b1, if_neg m4, if_neg m5, eul]
    simp [lookup_nil]
  have f4 : lookup (updateBase omega l n b.1 b.2).1 "i" = some x := base_keeps _ _ _ _ _ _ _ nb1 hx hx0
  have hh : (1 / 2 * un : K) ≠ 0 := mul_ne_zero (by norm_num) hun0
  have g1 : lookup (updateBase omega l n b.1 b.2).2 q.2 = some y := by
    rw [base_nominal _ _ _ _ _ hln, if_pos (miss _ _ (merge_keys _ _ _ hn _ hf4)), f1, b2, if_pos m2]; rfl
  have g2 : lookup (updateBase omega l n b.1 b.2).2 q.1 = some (1 / 2 * un) := by
    rw [base_nominal _ _ _ _ _ hln, if_pos (miss _ _ (merge_keys _ _ _ hn _ hf3)), f2, b2, if_neg m3, if_pos m1]; rfl
  have g3 := base_keeps_nominal omega l n b.1 b.2 "u" un hln eun hun0
  have g4 := base_keeps_nominal omega l n b.1 b.2 "i" y hln hy hy0
  have hbn := base_nodup omega l n b.1 b.2 hln
  rw [second _ _ _ c2 c4, second _ _ _ c1 c3, second _ _ "u" (by simp) (by simp), second _ _ "i" (by simp) (by simp), f1, f2,
    f3, f4, base_keeps_nominal _ _ _ _ _ _ _ hbn g1 hy0, base_keeps_nominal _ _ _ _ _ _ _ hbn g2 hh,
    base_keeps_nominal _ _ _ _ _ _ _ hbn g3 hun0, base_keeps_nominal _ _ _ _ _ _ _ hbn g4 hy0]
  exact ⟨rfl, rfl, rfl, rfl⟩

/-- The documented specific entries cannot be given: a limit dictionary with any of them is refused with a `KeyError`
(unless the class has a default for it, as the externally excited machine for `i_e`). -/
theorem c69_specific_refused_violated (omega pi : K) (r : K) (tl : Dict K → Dict K → Except Err K) (defN : Dict K)
    (uL uN : Dict K) (q : String × String) (hq : q ∈ syncIos) (x : K) (hk : (q.1, x) ∈ uL ∨ (q.2, x) ∈ uL) :
    acLimits (pmsmDefLimits omega pi) defN syncIos r tl uL uN = .error .key := by
  have : mergeUser (pmsmDefLimits omega pi) uL = .error .key := by
    unfold mergeUser
    rw [if_neg]
    intro hall
    have hm : q.1 ∉ (pmsmDefLimits omega pi).map Prod.fst ∧ q.2 ∉ (pmsmDefLimits omega pi).map Prod.fst := by
      simp only [syncIos, List.mem_cons, List.not_mem_nil, or_false] at hq
      rcases hq with rfl | rfl | rfl | rfl | rfl <;> simp [pmsmDefLimits]
    rcases hk with h | h
    · exact hm.1 (hall _ h)
    · exact hm.2 (hall _ h)
  unfold acLimits
  rw [this]; rfl

/-- A general current of zero ("not specified") is not replaced by a physical maximum, it makes the construction fail. -/
theorem c69_missing_current_violated (omega pi : K) (r : K) (tl : Dict K → Dict K → Except Err K) (uL uN : Dict K)
    (h : (lookup uL "i") = some 0) :
    acLimits (pmsmDefLimits omega pi) (pmsmDefNominal omega pi) syncIos r tl uL uN = .error .key := by
  unfold acLimits
  cases hl : mergeUser (pmsmDefLimits omega pi) uL with
  | error e =>
    have : e = .key := by
      unfold mergeUser at hl; split at hl <;> simp_all
    rw [this]; rfl
  | ok l =>
    cases hn : mergeUser (pmsmDefNominal omega pi) uN with
    | error e =>
      have : e = .key := by
        unfold mergeUser at hn; split at hn <;> simp_all
      rw [this]; rfl
    | ok n =>
      have hlu := (mergeUser_ok _ _ _ hl).2
      have hnu := (mergeUser_ok _ _ _ hn).2
      have hmi : Missing l "i" := by unfold Missing; rw [hlu, h]; simp
      have hua : lookup l "u_a" = none := merge_keys _ _ _ hl _ (by simp [pmsmDefLimits, lookup_cons, lookup_nil])
      have hlu' : ∃ x, Init.get l "u" = .ok x := by
        unfold Init.get
        rw [hlu]
        cases lookup uL "u" <;> simp [pmsmDefLimits, lookup_cons, lookup_nil]
      have hnu' : ∃ x, Init.get n "u" = .ok x := by
        unfold Init.get
        rw [hnu]
        cases lookup uN "u" <;> simp [pmsmDefNominal, lookup_cons, lookup_nil]
      obtain ⟨x, hx⟩ := hlu'
      obtain ⟨y, hy⟩ := hnu'
      have ho : Init.get (pmsmDefLimits omega pi) "omega" = .ok omega := by
        simp [Init.get, pmsmDefLimits, lookup_cons, lookup_nil]
      have : ioAgenda l n r syncIos = .error .key := by
        unfold ioAgenda
        rw [hx, hy]
        exact ioLoop_missing _ _ _ _ _ _ _ _ hmi hua
      simp only [bind, Except.bind, ho, this]

/-- DC motors: giving only the general current limit leaves the limits of armature and excitation current at the class
default, whatever the value is. -/
theorem c69_general_dc_violated (kind : DcKind) (hk : kind = .extEx ∨ kind = .shunt) (ra re x : K)
    (torque : List K → K) (res : Dict K × Dict K) (h210 : (210 : K) ≠ 0)
    (h : dcLimits kind ra re torque [("i", x)] [] = .ok res) :
    lookup res.1 "i_a" = some 210 ∧ lookup res.1 "i_e" = some 210 := by
  have key : ∀ l, mergeUser dcDefLimits [("i", x)] = .ok l → lookup l "i_a" = some 210 ∧ lookup l "i_e" = some 210 := by
    intro l hl
    rw [(mergeUser_ok _ _ _ hl).2, (mergeUser_ok _ _ _ hl).2]
    simp [dcDefLimits, lookup_cons, lookup_nil]
  rcases hk with rfl | rfl
  · unfold dcLimits extExLimits at h
    obtain ⟨l, hl, h⟩ := bind_ok h
    obtain ⟨n, hn, h⟩ := bind_ok h
    obtain ⟨ia, _, h⟩ := bind_ok h
    obtain ⟨ie, _, h⟩ := bind_ok h
    obtain ⟨is, hi, rfl⟩ := updateDc_ok _ _ _ _ _ _ _ h
    obtain ⟨k1, k2⟩ := key l hl
    exact ⟨base_keeps _ _ _ _ _ _ _ (set_nodup _ _ _ (by simp)) k1 h210,
      base_keeps _ _ _ _ _ _ _ (set_nodup _ _ _ (by simp)) k2 h210⟩
  · unfold dcLimits shuntLimits at h
    obtain ⟨l, hl, h⟩ := bind_ok h
    obtain ⟨n, hn, h⟩ := bind_ok h
    obtain ⟨ia, _, h⟩ := bind_ok h
    obtain ⟨ie, _, h⟩ := bind_ok h
    obtain ⟨is, hi, rfl⟩ := updateDc_ok _ _ _ _ _ _ _ h
    obtain ⟨k1, k2⟩ := key l hl
    exact ⟨base_keeps _ _ _ _ _ _ _ (set_nodup _ _ _ (by simp)) k1 h210,
      base_keeps _ _ _ _ _ _ _ (set_nodup _ _ _ (by simp)) k2 h210⟩

/-- "If not specified, nominal values are equal to their corresponding limit values": a permanent magnet motor with a
current limit `x` and no nominal values has a nominal current of 240, also if `x` is smaller. -/
theorem c69_nominal_violated (omega pi r x : K) (tl : Dict K → Dict K → Except Err K) (res : Dict K × Dict K)
    (hx : x ≠ 0) (h240 : (240 : K) ≠ 0)
    (h : acLimits (pmsmDefLimits omega pi) (pmsmDefNominal omega pi) syncIos r tl [("i", x)] [] = .ok res) :
    lookup res.1 "i" = some x ∧ lookup res.2 "i" = some 240 := by
  refine ⟨(c69_keeps_ac _ _ _ _ _ _ _ _ (by simp [pmsmDefLimits]) (by simp) h "i" x hx).1 (by simp [lookup_cons, lookup_nil]), ?_⟩
  obtain ⟨l, n, om, a, t, hl, hn, _, ha, _, rfl⟩ := acLimits_ok _ _ _ _ _ _ _ _ h
  have hln := merge_nodup _ _ _ (by simp [pmsmDefLimits]) (by simp) hl
  have h0 : lookup n "i" = some 240 := by
    rw [(mergeUser_ok _ _ _ hn).2]; simp [pmsmDefNominal, lookup_cons, lookup_nil]
  exact base_keeps_nominal _ _ _ _ _ _ _ (base_nodup _ _ _ _ _ hln) (base_keeps_nominal _ _ _ _ _ _ _ hln h0 h240) h240

/-! ## Current limits left open -/

theorem open_current {omega : K} {torque : List K → K} {cs : List String} {l n a : Dict K} {res : Dict K × Dict K}
    (h : updateDc omega torque cs l n a = .ok res) (ha : (a.map Prod.fst).Nodup) {k : String} (h0 : lookup l k = some 0) (hk : k ≠ "omega")
    (hk' : k ≠ "torque") {x : K} (hx : lookup a k = some x) : lookup res.1 k = some x := by
  obtain ⟨is, -, rfl⟩ := updateDc_ok _ _ _ _ _ _ _ h
  rw [base_lookup _ _ _ _ _ (set_nodup _ _ _ ha), if_pos (by unfold Missing; rw [h0]; rfl), if_neg hk, lookup_set, if_neg hk', hx]
  rfl

/-- Current limits that are left open (zero) are the currents that flow through the DC motor at standstill in the end if the voltage is at its
limit. -/
theorem c69_stall_dc (pe : Motor.PermExParams K) (mp : Motor.DcParams K) (torque : List K → K) (uL uN : Dict K) (res : Dict K × Dict K) (u : K)
    (hu : lookup uL "u" = some u) (hi : lookup uL "i" = some 0) :
    (permExLimits pe.ra torque uL uN = .ok res → pe.ra ≠ 0 → ∃ i, lookup res.1 "i" = some i ∧ Motor.permExOde pe ![i] ![u] 0 = 0) ∧
    (seriesLimits mp.ra mp.re torque uL uN = .ok res → mp.ra ≠ 0 → mp.ra + mp.re ≠ 0 →
      ∃ i, lookup res.1 "i" = some i ∧ Motor.seriesOde mp ![i] ![u] 0 = 0) ∧
    (lookup uL "i_a" = some 0 → lookup uL "i_e" = some 0 → mp.ra ≠ 0 → mp.re ≠ 0 →
      (shuntLimits mp.ra mp.re torque uL uN = .ok res →
        ∃ ia ie, lookup res.1 "i_a" = some ia ∧ lookup res.1 "i_e" = some ie ∧ Motor.shuntOde mp ![ia, ie] ![u] 0 = 0) ∧
      (extExLimits mp.ra mp.re torque uL uN = .ok res →
        ∃ ia ie, lookup res.1 "i_a" = some ia ∧ lookup res.1 "i_e" = some ie ∧ Motor.dcOde mp ![ia, ie] ![u, u] 0 = 0)) := by
  have two : mp.ra ≠ 0 → mp.re ≠ 0 → Motor.dcOde mp ![u / mp.ra, u / mp.re] ![u, u] 0 = 0 := by
    intro h1 h2
    rw [Motor.dcOde_eq]
    funext k
    fin_cases k
    · simp [mul_div_cancel₀ u h1]
    · simp [mul_div_cancel₀ u h2]
  have given : ∀ {d l : Dict K} {k : String} {x : K}, mergeUser d uL = .ok l → lookup uL k = some x → lookup l k = some x := by
    intro d l k x h hk
    rw [(mergeUser_ok _ _ _ h).2, hk]
    rfl
  have cur : ∀ {l : Dict K} (r : K), lookup l "i" = some 0 → lookup l "u" = some u → currentOrU l r = .ok (u / r) := by
    intro l r h1 h2
    simp [currentOrU, currentOr, h1, Init.get, h2, Except.map]
  refine ⟨fun h hr => ?_, fun h hr hr' => ?_, fun hia hie hr hr' => ⟨fun h => ?_, fun h => ?_⟩⟩
  · unfold permExLimits at h
    obtain ⟨l, hl, h⟩ := bind_ok h
    obtain ⟨n, hn, h⟩ := bind_ok h
    simp only [Init.get, given hl hu, bind, Except.bind] at h
    refine ⟨u / pe.ra, open_current h (by simp) (given hl hi) (by decide) (by decide) (by simp [lookup_cons, lookup_nil, guardRa, hr]), ?_⟩
    rw [Motor.permExOde_eq]
    funext k
    fin_cases k
    simp [mul_div_cancel₀ u hr]
  · unfold seriesLimits at h
    obtain ⟨l, hl, h⟩ := bind_ok h
    obtain ⟨n, hn, h⟩ := bind_ok h
    simp only [Init.get, given hl hu, bind, Except.bind] at h
    refine ⟨u / (mp.ra + mp.re), open_current h (by simp) (given hl hi) (by decide) (by decide) (by simp [lookup_cons, lookup_nil, guardRa, hr]), ?_⟩
    rw [Motor.seriesOde_eq]
    funext k
    fin_cases k
    simp only [Fin.zero_eta, Matrix.cons_val_zero, Pi.zero_apply, neg_mul, mul_div_cancel₀ u hr']
    simp
  · unfold shuntLimits at h
    obtain ⟨l, hl, h⟩ := bind_ok h
    obtain ⟨n, hn, h⟩ := bind_ok h
    simp only [cur _ (given hl hi) (given hl hu), bind, Except.bind] at h
    exact ⟨u / mp.ra, u / mp.re,
      open_current h (by simp) (given hl hia) (by decide) (by decide) (by simp [lookup_cons, lookup_nil, guardRa, hr]),
      open_current h (by simp) (given hl hie) (by decide) (by decide) (by simp [lookup_cons, lookup_nil]), two hr hr'⟩
  · unfold extExLimits at h
    obtain ⟨l, hl, h⟩ := bind_ok h
    obtain ⟨n, hn, h⟩ := bind_ok h
    simp only [cur _ (given hl hi) (given hl hu), bind, Except.bind] at h
    exact ⟨u / mp.ra, u / mp.re,
      open_current h (by simp) (given hl hia) (by decide) (by decide) (by simp [lookup_cons, lookup_nil, guardRa, hr]),
      open_current h (by simp) (given hl hie) (by decide) (by decide) (by simp [lookup_cons, lookup_nil]), two hr hr'⟩

/-- 50 V at 0.1 + 0.15 Ω -/
example : ((seriesLimits (1 / 10) (15 / 100) (fun is => (is[0]?).getD 0 ^ 2) [("u", (50 : ℚ)), ("i", 0)] []).map
    fun r => lookup r.1 "i") = .ok (some 200) := by
  decide +kernel

/-! ## The torque limit of DC motors -/

/-- If the torque limit is to be computed (given as zero) and the current limits are not, it is the torque at the current
limits of the motor. -/
theorem c69_torque_extex (ra re x y : K) (torque : List K → K) (uN : Dict K) (res : Dict K × Dict K) (hx : x ≠ 0) (hy : y ≠ 0)
    (h : extExLimits ra re torque [("torque", 0), ("i_a", x), ("i_e", y)] uN = .ok res) :
    lookup res.1 "i_a" = some x ∧ lookup res.1 "i_e" = some y ∧ lookup res.1 "torque" = some (torque [x, y]) := by
  unfold extExLimits at h
  obtain ⟨l, hl, h⟩ := bind_ok h
  obtain ⟨n, hn, h⟩ := bind_ok h
  obtain ⟨ia, _, h⟩ := bind_ok h
  obtain ⟨ie, _, h⟩ := bind_ok h
  obtain ⟨is, hi, rfl⟩ := updateDc_ok _ _ _ _ _ _ _ h
  have hlu := (mergeUser_ok _ _ _ hl).2
  have k1 : lookup l "i_a" = some x := by rw [hlu]; simp [lookup_cons, lookup_nil]
  have k2 : lookup l "i_e" = some y := by rw [hlu]; simp [lookup_cons, lookup_nil]
  have k3 : lookup l "torque" = some 0 := by rw [hlu]; simp [lookup_cons, lookup_nil]
  have his : is = [x, y] := by
    simp [Init.get, k1, k2, bind, Except.bind, pure, Except.pure] at hi
    exact hi.symm
  refine ⟨base_keeps _ _ _ _ _ _ _ (set_nodup _ _ _ (by simp)) k1 hx,
      base_keeps _ _ _ _ _ _ _ (set_nodup _ _ _ (by simp)) k2 hy, ?_⟩
  rw [base_lookup _ _ _ _ _ (set_nodup _ _ _ (by simp)), if_pos (by unfold Missing; rw [k3]; rfl), lookup_set, his]
  simp

/-- If the armature current limit is to be filled as well, the torque limit becomes zero although the filled current limit
is not: the torque is computed before the currents are filled. -/
theorem c69_torque_extex_violated (ra re lePrime : K) (uN : Dict K) (res : Dict K × Dict K) (h210 : (210 : K) ≠ 0)
    (h : extExLimits ra re (fun is => lePrime * (is[0]?).getD 0 * (is[1]?).getD 0) [("torque", 0), ("i_a", 0)] uN = .ok res) :
    lookup res.1 "i_a" = some 210 ∧ lookup res.1 "i_e" = some 210 ∧ lookup res.1 "torque" = some 0 := by
  unfold extExLimits at h
  obtain ⟨l, hl, h⟩ := bind_ok h
  obtain ⟨n, hn, h⟩ := bind_ok h
  obtain ⟨ia, hia, h⟩ := bind_ok h
  obtain ⟨ie, _, h⟩ := bind_ok h
  obtain ⟨is, hi, rfl⟩ := updateDc_ok _ _ _ _ _ _ _ h
  have hlu := (mergeUser_ok _ _ _ hl).2
  have k0 : lookup l "i" = some 210 := by rw [hlu]; simp [dcDefLimits, lookup_cons, lookup_nil]
  have k1 : lookup l "i_a" = some 0 := by rw [hlu]; simp [lookup_cons, lookup_nil]
  have k2 : lookup l "i_e" = some 210 := by rw [hlu]; simp [dcDefLimits, lookup_cons, lookup_nil]
  have k3 : lookup l "torque" = some 0 := by rw [hlu]; simp [lookup_cons, lookup_nil]
  have his : is = [0, 210] := by
    simp [Init.get, k1, k2, bind, Except.bind, pure, Except.pure] at hi
    exact hi.symm
  have hia' : ia = 210 := by
    unfold currentOrU at hia
    rw [currentOr_some _ _ _ _ k0 h210] at hia
    simpa using hia.symm
  refine ⟨?_, base_keeps _ _ _ _ _ _ _ (set_nodup _ _ _ (by simp)) k2 h210, ?_⟩
  · rw [base_lookup _ _ _ _ _ (set_nodup _ _ _ (by simp)), if_pos (by unfold Missing; rw [k1]; rfl), lookup_set]
    simp [lookup_cons, lookup_nil, hia']
  · rw [base_lookup _ _ _ _ _ (set_nodup _ _ _ (by simp)), if_pos (by unfold Missing; rw [k3]; rfl), lookup_set, his]
    simp

/-! ## Concrete cases -/

/-- A permanent magnet motor with a current limit of 100 (torque limit: flux × current). -/
example : (acLimits (pmsmDefLimits 419 3) (pmsmDefNominal 314 3) syncIos (1 / 10)
      (fun l _ => (GEM.Init.get l "i_sq").map (fun i => i / 5)) [("i", (100 : ℚ))] []).map
      (fun r => (r.1.map (fun p => (p.1, p.2)), r.2)) =
    .ok ([("omega", 419), ("torque", 20), ("i", 100), ("epsilon", 3), ("u", 300), ("u_a", 150), ("i_a", 100), ("u_b", 150),
        ("i_b", 100), ("u_c", 150), ("i_c", 100), ("u_sd", 150), ("i_sd", 100), ("u_sq", 150), ("i_sq", 100)],
      [("omega", 314), ("torque", 20), ("i", 240), ("epsilon", 3), ("u", 300), ("u_a", 150), ("i_a", 240), ("u_b", 150),
        ("i_b", 240), ("u_c", 150), ("i_c", 240), ("u_sd", 150), ("i_sd", 240), ("u_sq", 150), ("i_sq", 240)]) := by
  decide +kernel

/-- The names of the synchronous motors meet the hypotheses of `c69_general_ac`. -/
example : (∀ p ∈ syncIos, ∀ q ∈ syncIos, p.1 ≠ q.2) ∧
    (∀ q ∈ syncIos, q.1 ≠ "omega" ∧ q.2 ≠ "omega" ∧ q.1 ≠ "torque" ∧ q.2 ≠ "torque" ∧ q.1 ≠ "u" ∧ q.2 ≠ "u" ∧
      q.1 ≠ "i" ∧ q.2 ≠ "i") ∧
    (∀ q ∈ syncIos, lookup (pmsmDefLimits (419 : ℚ) 3) q.1 = none ∧ lookup (pmsmDefLimits (419 : ℚ) 3) q.2 = none) := by
  decide +kernel

/-- So do those of the induction motors. -/
example : (∀ p ∈ imIos, ∀ q ∈ imIos, p.1 ≠ q.2) ∧
    (∀ q ∈ imIos, q.1 ≠ "omega" ∧ q.2 ≠ "omega" ∧ q.1 ≠ "torque" ∧ q.2 ≠ "torque" ∧ q.1 ≠ "u" ∧ q.2 ≠ "u" ∧
      q.1 ≠ "i" ∧ q.2 ≠ "i") := by
  decide +kernel

example : acLimits (pmsmDefLimits 419 3) (pmsmDefNominal 314 3) syncIos (1 / 10) (fun _ _ => .ok 1) [("i_sd", (100 : ℚ))] [] =
    .error .key := by decide +kernel

/-- A DC motor with a general current limit of 50 keeps 210 for the armature. -/
example : (extExLimits (16 / 1000) (16 / 100) (fun is => 17 / 10000 * (is[0]?).getD 0 * (is[1]?).getD 0) [("i", (50 : ℚ))] []).map
      (fun r => r.1) =
    .ok [("omega", 400), ("torque", 38), ("i", 50), ("i_a", 210), ("i_e", 210), ("u", 60), ("u_a", 60), ("u_e", 60)] := by
  decide +kernel

example : (extExLimits (16 / 1000) (16 / 100) (fun is => 17 / 10000 * (is[0]?).getD 0 * (is[1]?).getD 0)
      [("torque", 0), ("i_a", (0 : ℚ))] []).map (fun r => r.1) =
    .ok [("omega", 400), ("torque", 0), ("i", 210), ("i_a", 210), ("i_e", 210), ("u", 60), ("u_a", 60), ("u_e", 60)] := by
  decide +kernel

example : (extExLimits (16 / 1000) (16 / 100) (fun is => 17 / 10000 * (is[0]?).getD 0 * (is[1]?).getD 0)
      [("torque", 0), ("i_a", (100 : ℚ)), ("i_e", 20)] []).map (fun r => r.1) =
    .ok [("omega", 400), ("torque", 34 / 10), ("i", 210), ("i_a", 100), ("i_e", 20), ("u", 60), ("u_a", 60), ("u_e", 60)] := by
  decide +kernel

example : (seriesLimits (16 / 1000) (16 / 100) (fun is => 17 / 10000 * (is[0]?).getD 0 ^ 2) [("torque", 0), ("i", (100 : ℚ))]
      [("i", 80)]).map (fun r => (lookup r.1 "torque", lookup r.2 "i")) = .ok (some 17, some 80) := by
  decide +kernel

end GEM.Props
