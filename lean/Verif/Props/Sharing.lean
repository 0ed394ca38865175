import Mathlib.Tactic.NormNum
import Verif.Props.Limits
import Verif.Proofs.Sharing

/-!
# C31: instances do not influence each other
-/

set_option linter.unusedSectionVars false

namespace GEM.Props

open GEM.Utils GEM.Init GEM.Limits GEM.Sharing

variable {K : Type} [Field K] [LinearOrder K]

/-- Checked constant initialisation of a one-entry dictionary. -/
private theorem draw_const (rvs : Rvs K) (pool : ℕ) (draws : List K) (lo hi v : K) (s : String) (h1 : lo ≤ v) (h2 : v ≤ hi) :
    drawValues (⟨[], none, none, none, none, none⟩ : Cfg K) rvs pool draws [lo] [hi] [(s, v)] = .ok [v] := by
  simp [drawValues, ball, bzip, Except.map, h1, h2, bind, Except.bind]

private theorem write_one (s : String) (x v : K) : writeBack [(s, x)] [v] = [(s, v)] := by
  simp [writeBack, dictUpdate, dictSet]

private theorem set_one (s : String) (x v : K) : dictSet [(s, x)] s v = [(s, v)] := by simp [dictSet]

/-! ## Loads -/

/-- Loads with different initial state dictionaries are independent: whatever a program does with other loads, as long as it
does not use the dictionary of load `i`, the next reset of load `i` returns and does the same as without these calls.
This is the part of the property that holds. -/
theorem c31_load_partial (w : World K) (i : ℕ) (o : LoadObj K) (d : Dict K) (ho : w.loads[i]? = some o)
    (hd : w.heap[o.states]? = some d) (es : List (Event K)) (h : Untouched w o.states es)
    (bounds : List String → Except Err (List K × List K)) (rvs : Rvs K) (pool : ℕ) (draws : List K) :
    (exec (run w es) (.reset i bounds rvs pool draws)).2 = (exec w (.reset i bounds rvs pool draws)).2 ∧
    (exec (run w es) (.reset i bounds rvs pool draws)).1.heap[o.states]? =
      (exec w (.reset i bounds rvs pool draws)).1.heap[o.states]? := by
  obtain ⟨h1, h2⟩ := run_frame w es o.states d hd h i o ho
  have l1 : o.states < w.heap.length := (List.getElem?_eq_some_iff.1 hd).1
  have l2 : o.states < (run w es).heap.length := (List.getElem?_eq_some_iff.1 h1).1
  simp only [exec, resetLoad, ho, h2, hd, h1]
  cases bounds (d.map Prod.fst) with
  | error e => exact ⟨rfl, by rw [h1, hd]⟩
  | ok b =>
    simp only []
    cases drawValues o.cfg rvs pool draws b.1 b.2 d with
    | error e => exact ⟨rfl, by rw [h1, hd]⟩
    | ok v =>
      simp only []
      exact ⟨trivial, by rw [List.getElem?_set_self l1, List.getElem?_set_self l2]⟩

/-- Two constant speed loads with default initializer share their initial speed: after creating a second one for speed `b`,
the first one, created for speed `a`, starts (and, its derivative being zero, stays) at `b`, while still reporting
`omega_fixed = a`. -/
theorem c31_const_violated (w : World K) (x a b lo hi : K) (hw : w.heap[0]? = some [("omega", x)]) (ha : a ≠ 0) (hb : b ≠ 0)
    (h1 : lo ≤ b) (h2 : b ≤ hi) (rvs : Rvs K) (pool : ℕ) (draws : List K) :
    (exec (run w [.newConst a {}, .newConst b {}]) (.reset w.loads.length (fun _ => .ok ([lo], [hi])) rvs pool draws)).2
      = .ok [b] ∧
    (run w [.newConst a {}, .newConst b {}]).loads[w.loads.length]?.bind (·.omega) = some a := by
  obtain ⟨l, hw'⟩ := List.getElem?_eq_some_iff.1 hw
  have e : run w [.newConst a {}, .newConst b {}] = ⟨w.heap.set 0 [("omega", b)],
      w.loads ++ [⟨0, ⟨[], none, none, none, none, none⟩, some a⟩, ⟨0, ⟨[], none, none, none, none, none⟩, some b⟩]⟩ := by
    simp [run, exec, newConst, hw', ha, hb, set_one, l]
  rw [e]
  refine ⟨?_, by simp⟩
  have : (w.heap.set 0 [("omega", b)])[0]? = some [("omega", b)] := List.getElem?_set_self l
  simp only [exec, resetLoad]
  rw [List.getElem?_append_right (le_refl _)]
  simp only [Nat.sub_self, List.getElem?_cons_zero, this]
  rw [draw_const rvs pool draws lo hi b "omega" h1 h2]
  simp [write_one]

/-- A load created for standstill after one created for speed `a` runs at `a`, too. -/
theorem c31_const_zero_violated (w : World K) (x a : K) (hw : w.heap[0]? = some [("omega", x)]) (ha : a ≠ 0) :
    (run w [.newConst a {}, .newConst 0 {}]).loads[w.loads.length + 1]?.bind (·.omega) = some a := by
  obtain ⟨l, hw'⟩ := List.getElem?_eq_some_iff.1 hw
  simp [run, exec, newConst, hw', ha, set_one, l, Init.get, lookup]

/-- Alone, the load does what it says: it is created with, and starts at, speed `a`. -/
theorem c31_const_alone (w : World K) (x a lo hi : K) (hw : w.heap[0]? = some [("omega", x)]) (ha : a ≠ 0)
    (h1 : lo ≤ a) (h2 : a ≤ hi) (es : List (Event K)) (he : Untouched (run w [.newConst a {}]) 0 es)
    (rvs : Rvs K) (pool : ℕ) (draws : List K) :
    (exec (run (run w [.newConst a {}]) es) (.reset w.loads.length (fun _ => .ok ([lo], [hi])) rvs pool draws)).2 = .ok [a] := by
  have l : 0 < w.heap.length := (List.getElem?_eq_some_iff.1 hw).1
  have e : run w [.newConst a {}] = ⟨w.heap.set 0 [("omega", a)],
      w.loads ++ [⟨0, ⟨[], none, none, none, none, none⟩, some a⟩]⟩ := by
    simp [run, exec, newConst, hw, ha, set_one]
  have hh : (w.heap.set 0 [("omega", a)])[0]? = some [("omega", a)] := List.getElem?_set_self l
  have key := (c31_load_partial (run w [.newConst a {}]) w.loads.length ⟨0, ⟨[], none, none, none, none, none⟩, some a⟩
    [("omega", a)] (by rw [e]; simp) (by rw [e]; exact hh) es he (fun _ => .ok ([lo], [hi])) rvs pool draws).1
  rw [key, e]
  simp only [exec, resetLoad]
  rw [List.getElem?_append_right (le_refl _)]
  simp only [Nat.sub_self, List.getElem?_cons_zero, hh]
  rw [draw_const rvs pool draws lo hi a "omega" h1 h2]
  simp [write_one]

/-- The classes do not share: resets of a polynomial load with default initial states, however it draws them, leave a constant
speed load with default initial states alone. -/
theorem c31_classes (w : World K) (x a lo hi : K) (hw : w.heap[0]? = some [("omega", x)]) (ha : a ≠ 0)
    (h1 : lo ≤ a) (h2 : a ≤ hi) (c : Cfg K) (bounds : List String → Except Err (List K × List K)) (rvs : Rvs K) (pool : ℕ)
    (draws : List K) (n : ℕ) :
    (exec (run (run w [.newConst a {}]) (.newPoly ⟨none, c⟩ ::
        List.replicate n (.reset (w.loads.length + 1) bounds rvs pool draws)))
      (.reset w.loads.length (fun _ => .ok ([lo], [hi])) rvs pool draws)).2 = .ok [a] := by
  have l : 0 < w.heap.length := (List.getElem?_eq_some_iff.1 hw).1
  have e : run w [.newConst a {}] = ⟨w.heap.set 0 [("omega", a)],
      w.loads ++ [⟨0, ⟨[], none, none, none, none, none⟩, some a⟩]⟩ := by
    simp [run, exec, newConst, hw, ha, set_one]
  refine c31_const_alone w x a lo hi hw ha h1 h2 _ ?_ rvs pool draws
  rw [e]
  refine ⟨by simp [Touches], ?_⟩
  have key : ∀ (n : ℕ) (v : World K), v.loads[w.loads.length + 1]? = some ⟨1, c, none⟩ →
      Untouched v 0 (List.replicate n (.reset (w.loads.length + 1) bounds rvs pool draws)) := by
    intro n
    induction n with
    | zero => intro v _; trivial
    | succ n ih =>
      intro v hv
      refine ⟨?_, ih _ (exec_loads _ _ _ _ hv)⟩
      simp [Touches, hv]
  apply key
  simp [exec, newPoly]

/-- What a load with a random initial speed draws becomes the constant initial speed of every load that uses the same
dictionary, in particular of all `PolynomialStaticLoad`s with default initial states. -/
theorem c31_poly_violated (w : World K) (x v lo hi lo' hi' : K) (i j : ℕ) (c : Cfg K) (r : ℕ) (om om' : Option K)
    (hw : w.heap[r]? = some [("omega", x)]) (hli : w.loads[i]? = some ⟨r, c, om⟩)
    (hj : w.loads[j]? = some ⟨r, ⟨[], none, none, none, none, none⟩, om'⟩) (rvs : Rvs K) (pool pool' : ℕ) (draws draws' : List K)
    (hv : drawValues c rvs pool draws [lo] [hi] [("omega", x)] = .ok [v]) (h1 : lo' ≤ v) (h2 : v ≤ hi') :
    (exec (exec w (.reset i (fun _ => .ok ([lo], [hi])) rvs pool draws)).1
      (.reset j (fun _ => .ok ([lo'], [hi'])) rvs pool' draws')).2 = .ok [v] := by
  have l : r < w.heap.length := (List.getElem?_eq_some_iff.1 hw).1
  have hh : (w.heap.set r [("omega", v)])[r]? = some [("omega", v)] := List.getElem?_set_self l
  have e : (exec w (.reset i (fun _ => .ok ([lo], [hi])) rvs pool draws)).1 =
      { w with heap := w.heap.set r [("omega", v)] } := by
    simp only [exec, resetLoad, hli, hw, hv, write_one]
  rw [e]
  simp only [exec, resetLoad, hj, hh]
  rw [draw_const rvs pool' draws' lo' hi' v "omega" h1 h2]
  simp [write_one]

/-! ## Motors -/

/-- Motors do not influence each other's initial state: whatever else is created and reset in between — motors of the same
class with the same class default dictionary or with the same user dictionary included — a reset of motor `i` returns the
same values. -/
theorem c31_motor (w : MWorld K) (hs : Separate w) (es : List (MEvent K)) (hl : LegalRun w es) (i : ℕ)
    (hi : i < w.motors.length) (hne : ∀ e ∈ es, ∀ bounds rvs pool draws, e ≠ .reset i bounds rvs pool draws)
    (bounds : List String → Except Err (List K × List K)) (rvs : Rvs K) (pool : ℕ) (draws : List K) :
    (mexec (mrun w es) (.reset i bounds rvs pool draws)).2 = (mexec w (.reset i bounds rvs pool draws)).2 := by
  have ho : w.motors[i]? = some w.motors[i] := List.getElem?_eq_getElem hi
  obtain ⟨f1, f2, f3, f4⟩ := mrun_frame w es hs hl i _ ho hne
  simp only [mexec, ho, f1]
  have : w.motors[i].seen (mrun w es).heap = w.motors[i].seen w.heap := by
    unfold MotorObj.seen
    rw [f3, f4]
  rw [this, f2]
  cases motorReset (w.motors[i].seen w.heap) bounds rvs pool draws w.motors[i].nZero (w.heap[w.motors[i].own]?.getD []) <;> rfl

/-- Every program keeps the motors separate, starting from any heap without motors. -/
theorem c31_motor_separate (heap : List (Dict K)) (es : List (MEvent K)) (hl : LegalRun ⟨heap, []⟩ es) :
    Separate (mrun ⟨heap, []⟩ es) :=
  mrun_separate _ es ⟨fun i o h => by simp at h, fun i j o p h => by simp at h⟩ hl

/-! ## Induction motors -/

private theorem get_some (d : Dict K) (k : String) (v : K) (hd : Init.get d k = .ok v) : lookup d k = some v := by
  unfold Init.get at hd
  cases hq : lookup d k with
  | none => rw [hq] at hd; simp at hd
  | some w => rw [hq] at hd; simpa using hd

/-- The limits of an AC motor, key by key. -/
private theorem ac_lookup (defL defN : Dict K) (ios : List (String × String)) (r : K)
    (tl : Dict K → Dict K → Except Err K) (uL uN : Dict K) (res : Dict K × Dict K)
    (h : acLimits defL defN ios r tl uL uN = .ok res) (l n : Dict K) (hl : mergeUser defL uL = .ok l)
    (hn : mergeUser defN uN = .ok n) (x y ul : K) (hx : lookup l "i" = some x) (hx0 : x ≠ 0) (hy : lookup n "i" = some y)
    (hy0 : y ≠ 0) (hul : lookup l "u" = some ul)
    (hdis : ∀ p ∈ ios, ∀ q ∈ ios, p.1 ≠ q.2) (k : String) (hk1 : k ≠ "omega") (hk2 : k ≠ "torque") :
    lookup res.1 k = if Missing l k then
        (if k ∈ ios.map Prod.snd then some x else if k ∈ ios.map Prod.fst then some (1 / 2 * ul) else lookup l k)
      else lookup l k := by
  obtain ⟨l', n', omega', a, t, hl', hn', ho', ha, _, rfl⟩ := acLimits_ok _ _ _ _ _ _ _ _ h
  rw [hl] at hl'; rw [hn] at hn'
  simp only [Except.ok.injEq] at hl' hn'
  subst hl' hn'
  unfold ioAgenda at ha
  obtain ⟨ul', hul', ha⟩ := bind_ok ha
  obtain ⟨un, hun', ha⟩ := bind_ok ha
  have e := get_some _ _ _ hul'
  rw [hul] at e
  simp only [Option.some.injEq] at e
  subst e
  obtain ⟨b, hb, nb1, nb2, b1, b2⟩ := ioLoop_ok l n r (1 / 2 * ul) (1 / 2 * un) x y hx hx0 hy hy0 ios ([], []) hdis
    (by simp) (by simp)
  rw [hb] at ha
  simp only [Except.ok.injEq] at ha
  subst ha
  have second : lookup (updateBase omega' (updateBase omega' l n b.1 b.2).1 (updateBase omega' l n b.1 b.2).2
      [("torque", t)] []).1 k = lookup (updateBase omega' l n b.1 b.2).1 k := by
    rw [base_lookup _ _ _ _ _ (by simp)]
    split
    · simp [Ne.symm hk2, lookup_cons, lookup_nil]
    · rfl
  rw [second, base_lookup _ _ _ _ _ nb1, b1, if_neg hk1]
  split
  · split
    · rfl
    · split
      · rfl
      · simp [lookup_nil]
  · rfl

private theorem grown_dis (n : ℕ) : ∀ p ∈ imIos ++ (List.replicate n rotorIos).flatten,
    ∀ q ∈ imIos ++ (List.replicate n rotorIos).flatten, p.1 ≠ q.2 := by
  intro p hp q hq
  have h : ∀ p ∈ imIos ++ rotorIos, ∀ q ∈ imIos ++ rotorIos, p.1 ≠ q.2 := by decide
  exact h p (mem_grown n p hp) q (mem_grown n q hq)

/-- Names of the rotor quantities. -/
def rotorNames : List String := rotorIos.map Prod.fst ++ rotorIos.map Prod.snd

/-- After any doubly fed motor has been created, the limits of every later squirrel cage motor contain rotor voltages and
currents, which it does not have otherwise. -/
theorem c31_scim_violated (m : ℕ) (defL defN : Dict K) (rs : K) (tl : Dict K → Dict K → Except Err K) (uL uN : Dict K)
    (res res0 : Dict K × Dict K) (h : scimLimits (afterDfims (m + 1)) defL defN rs tl uL uN = .ok res)
    (h0 : scimLimits (afterDfims 0) defL defN rs tl uL uN = .ok res0)
    (l n : Dict K) (hl : mergeUser defL uL = .ok l) (hn : mergeUser defN uN = .ok n) (x y ul : K)
    (hx : lookup l "i" = some x) (hx0 : x ≠ 0) (hy : lookup n "i" = some y) (hy0 : y ≠ 0) (hul : lookup l "u" = some ul)
    (k : String) (hk : k ∈ rotorNames) (hd : lookup defL k = none) :
    lookup res0.1 k = none ∧ (lookup res.1 k = some x ∨ lookup res.1 k = some (1 / 2 * ul)) := by
  unfold scimLimits at h h0
  rw [(afterDfims_zip _).1] at h h0
  have c1 : k ≠ "omega" ∧ k ≠ "torque" := by
    clear hd
    revert k; decide
  have hm : lookup l k = none := merge_keys _ _ _ hl k hd
  have hmis : Missing l k := by unfold Missing; rw [hm]; rfl
  rw [ac_lookup defL defN _ rs tl uL uN res h l n hl hn x y ul hx hx0 hy hy0 hul (grown_dis _) k c1.1 c1.2,
    ac_lookup defL defN _ rs tl uL uN res0 h0 l n hl hn x y ul hx hx0 hy hy0 hul (grown_dis _) k c1.1 c1.2,
    if_pos hmis, if_pos hmis]
  constructor
  · have : k ∉ imIos.map Prod.snd ∧ k ∉ imIos.map Prod.fst := by
      clear hd hm hmis
      revert k; decide
    simp [this.1, this.2, hm]
  · have : k ∈ (imIos ++ (List.replicate (m + 1) rotorIos).flatten).map Prod.snd ∨
        k ∈ (imIos ++ (List.replicate (m + 1) rotorIos).flatten).map Prod.fst := by
      simp only [rotorNames, List.mem_append, List.mem_map] at hk
      rcases hk with ⟨q, hq, rfl⟩ | ⟨q, hq, rfl⟩
      · right; exact List.mem_map.2 ⟨q, (grown_succ m q).2 (by simp [hq]), rfl⟩
      · left; exact List.mem_map.2 ⟨q, (grown_succ m q).2 (by simp [hq]), rfl⟩
    by_cases h1 : k ∈ (imIos ++ (List.replicate (m + 1) rotorIos).flatten).map Prod.snd
    · left; rw [if_pos h1]
    · right; rw [if_neg h1, if_pos (this.resolve_left h1)]

/-- All other limits of the squirrel cage motor (the torque limit aside, which is a function of the dictionaries) are the same
however many doubly fed motors were created before. -/
theorem c31_scim_partial (m : ℕ) (defL defN : Dict K) (rs : K) (tl : Dict K → Dict K → Except Err K) (uL uN : Dict K)
    (res res0 : Dict K × Dict K) (h : scimLimits (afterDfims m) defL defN rs tl uL uN = .ok res)
    (h0 : scimLimits (afterDfims 0) defL defN rs tl uL uN = .ok res0)
    (l n : Dict K) (hl : mergeUser defL uL = .ok l) (hn : mergeUser defN uN = .ok n) (x y ul : K)
    (hx : lookup l "i" = some x) (hx0 : x ≠ 0) (hy : lookup n "i" = some y) (hy0 : y ≠ 0) (hul : lookup l "u" = some ul)
    (k : String) (hk : k ∉ rotorNames) (hk1 : k ≠ "omega")
    (hk2 : k ≠ "torque") : lookup res.1 k = lookup res0.1 k := by
  unfold scimLimits at h h0
  rw [(afterDfims_zip _).1] at h h0
  have key : ∀ j, (k ∈ (imIos ++ (List.replicate j rotorIos).flatten).map Prod.snd ↔ k ∈ imIos.map Prod.snd) ∧
      (k ∈ (imIos ++ (List.replicate j rotorIos).flatten).map Prod.fst ↔ k ∈ imIos.map Prod.fst) := by
    intro j
    have side : ∀ f : String × String → String, (∀ q ∈ rotorIos, f q ≠ k) →
        (k ∈ (imIos ++ (List.replicate j rotorIos).flatten).map f ↔ k ∈ imIos.map f) := by
      intro f hf
      constructor
      · intro hm
        obtain ⟨q, hq, he⟩ := List.mem_map.1 hm
        rcases List.mem_append.1 hq with hq | hq
        · exact List.mem_map.2 ⟨q, hq, he⟩
        · obtain ⟨L, hL, hqL⟩ := List.mem_flatten.1 hq
          rw [(List.mem_replicate.1 hL).2] at hqL
          exact absurd he (hf q hqL)
      · intro hm
        obtain ⟨q, hq, he⟩ := List.mem_map.1 hm
        exact List.mem_map.2 ⟨q, List.mem_append.2 (Or.inl hq), he⟩
    refine ⟨side Prod.snd ?_, side Prod.fst ?_⟩
    · intro q hq he
      exact hk (List.mem_append.2 (Or.inr (List.mem_map.2 ⟨q, hq, he⟩)))
    · intro q hq he
      exact hk (List.mem_append.2 (Or.inl (List.mem_map.2 ⟨q, hq, he⟩)))
  rw [ac_lookup defL defN _ rs tl uL uN res h l n hl hn x y ul hx hx0 hy hy0 hul (grown_dis _) k hk1 hk2,
    ac_lookup defL defN _ rs tl uL uN res0 h0 l n hl hn x y ul hx hx0 hy hy0 hul (grown_dis _) k hk1 hk2]
  simp only [(key m).1, (key m).2, (key 0).1, (key 0).2]

/-! ## Supplies -/

/-- A parameter dictionary without a phase asks for a random phase. The first AC supply created from it draws one in every
episode, but the second supply created from the same dictionary object has the first phase of the first supply forever. -/
theorem c31_supply_violated (twoPi : K) (d : Dict K) (f p p' : K) (hf : lookup d "frequency" = some f)
    (hp : lookup d "phase" = none) (h0 : 0 ≤ p) (h1 : p < twoPi) :
    ∃ d' s1 s2, acNew twoPi d p = .ok (d', s1) ∧ acNew twoPi d' p' = .ok (d', s2) ∧ s1.phi = p ∧ s2.phi = p ∧
      ∀ draws : List K, (draws.foldl AcSupply.reset s2).phi = p ∧
        ∀ q, (draws.foldl AcSupply.reset s1).reset q = ⟨f, q, false⟩ := by
  have hf' : lookup (dictSet d "phase" p) "frequency" = some f := by rw [lookup_set, if_neg (by decide)]; exact hf
  have hp' : lookup (dictSet d "phase" p) "phase" = some p := by rw [lookup_set, if_pos rfl]
  refine ⟨dictSet d "phase" p, ⟨f, p, false⟩, ⟨f, p, true⟩, ?_, ?_, rfl, rfl, fun draws => ⟨?_, fun q => ?_⟩⟩
  · simp [acNew, hf, hp]
  · simp [acNew, hf', hp', h0, h1]
  · have : draws.foldl AcSupply.reset (⟨f, p, true⟩ : AcSupply K) = ⟨f, p, true⟩ := by
      induction draws with
      | nil => rfl
      | cons a t ih => simpa [AcSupply.reset] using ih
    rw [this]
  · have : ∀ s : AcSupply K, s.f = f → s.fixed = false →
        (draws.foldl AcSupply.reset s).f = f ∧ (draws.foldl AcSupply.reset s).fixed = false := by
      induction draws with
      | nil => exact fun s h1 h2 => ⟨h1, h2⟩
      | cons a t ih =>
        intro s h1 h2
        exact ih _ (by simp [AcSupply.reset, h2, h1]) (by simp [AcSupply.reset, h2])
    obtain ⟨e1, e2⟩ := this ⟨f, p, false⟩ rfl rfl
    simp [AcSupply.reset, e1, e2]

/-- Supplies created from a dictionary that has a phase, or from dictionaries of their own, do not interfere: the dictionary
is left as it is. -/
theorem c31_supply_partial (twoPi : K) (d : Dict K) (p draw : K) (d' : Dict K) (s : AcSupply K)
    (hp : lookup d "phase" = some p) (h : acNew twoPi d draw = .ok (d', s)) : d' = d ∧ s.phi = p := by
  unfold acNew at h
  cases hf : lookup d "frequency" with
  | none => rw [hf] at h; simp at h
  | some f =>
    rw [hf, hp] at h
    simp only [] at h
    split at h
    · simp only [Except.ok.injEq, Prod.mk.injEq] at h
      exact ⟨h.1.symm, by rw [← h.2]⟩
    · simp at h

/-! ## Environments and reused components -/

/-- All environments of a process report the sampling time of the one created last as `sim.tau`. -/
theorem c31_env_violated (w : Envs K) (taus : List K) (tau : K) (i : ℕ) (hi : i < w.taus.length) :
    ((taus ++ [tau]).foldl Envs.new w).simTauOf i = some tau := by
  have len : ∀ (ts : List K) (v : Envs K), v.taus.length ≤ (ts.foldl Envs.new v).taus.length := by
    intro ts
    induction ts with
    | nil => intro v; exact le_refl _
    | cons a t ih => intro v; refine le_trans ?_ (ih _); simp [Envs.new]
  rw [List.foldl_append]
  simp only [List.foldl_cons, List.foldl_nil, Envs.simTauOf, Envs.new]
  have h2 : i < ((taus.foldl Envs.new w).taus ++ [tau]).length := by
    have := len taus w
    simp; omega
  rw [List.getElem?_eq_getElem h2]
  rfl

/-- A load object used in two systems has the inertia of both rotors: the acceleration in the first system changes when
the second is created. -/
theorem c31_reused_load_violated [IsStrictOrderedRing K] (a b c jLoad tauDecay j1 j2 torque : K) (h1 : 0 < jLoad + j1)
    (h2 : 0 < j2) (ht : torque ≠ 0) :
    (((GEM.Load.Poly.new a b c jLoad tauDecay).setJRotor j1).setJRotor j2).mechanicalOde 0 0 torque ≠
      ((GEM.Load.Poly.new a b c jLoad tauDecay).setJRotor j1).mechanicalOde 0 0 torque := by
  have e : ∀ l : GEM.Load.Poly K, 0 ≤ l.omegaLim ∨ l.omegaLim < 0 → l.staticLoad 0 = 0 := by
    intro l _
    simp [GEM.Load.Poly.staticLoad, GEM.Load.sign]
  have k1 : (0 : K) < jLoad + j1 + j2 := by linarith
  simp only [GEM.Load.Poly.mechanicalOde, e _ (le_or_gt _ _)]
  simp only [GEM.Load.Poly.setJRotor, GEM.Load.Poly.new]
  intro h
  rw [div_eq_div_iff k1.ne' h1.ne'] at h
  have : torque * j2 = 0 := by linear_combination -h
  rcases mul_eq_zero.1 this with h | h
  · exact ht h
  · exact h2.ne' h

/-- The class level scratch array of the permanently excited DC motor does not carry anything over: the derivative is that
of the motor equation, whatever other instances computed before. -/
theorem c31_scratch (mp : GEM.Motor.PermExParams K) (scratch : Fin 3 → K) (i u omega : K) :
    (permExOdeScratch mp scratch i u omega).2 = GEM.Motor.permExOde mp ![i] ![u] omega 0 := by
  simp [permExOdeScratch, GEM.Motor.permExOde, GEM.Motor.permExConstants, GEM.Motor.rowsDiv, Matrix.mulVec, dotProduct,
    Fin.sum_univ_succ]
  ring

/-! ## Examples -/

/-- The state after importing the package meets the assumption of the theorems about constant speed loads. -/
example : (World.initial : World ℚ).heap[0]? = some [("omega", 0)] := rfl

/-- 100 rad/s, then 50 rad/s: the first load starts at 50 rad/s. -/
example : (exec (run (World.initial : World ℚ) [.newConst 100 {}, .newConst 50 {}])
    (.reset 0 (fun _ => .ok ([-400], [400])) (fun _ _ _ _ _ _ => []) 0 [])).2 = .ok [50] := by decide +kernel

/-- With its own dictionary the second load does no harm, as `c31_load_partial` says. -/
example : (exec (run (World.initial : World ℚ) [.newConst 100 {}, .dict [("omega", 0)], .newConst 50 { states := some 2 }])
    (.reset 0 (fun _ => .ok ([-400], [400])) (fun _ _ _ _ _ _ => []) 0 [])).2 = .ok [100] := by decide +kernel

/-- … and that program meets the hypothesis `Untouched`. -/
example : Untouched (run (World.initial : World ℚ) [.newConst 100 {}]) 0
    [.dict [("omega", 0)], .newConst 50 { states := some 2 }] := by
  simp [Untouched, Touches]

/-- Uniform draw 1/4 in [-400, 400]: the constant load afterwards starts at -200 as well. -/
example : (exec (run (World.initial : World ℚ)
      [.newPoly { cfg := ⟨[], none, none, some .uniform, none, none⟩ }, .newPoly {},
       .reset 0 (fun _ => .ok ([-400], [400])) (fun _ _ _ _ _ _ => []) 0 [1 / 4]])
    (.reset 1 (fun _ => .ok ([-400], [400])) (fun _ _ _ _ _ _ => []) 0 [])).2 = .ok [-200] := by decide +kernel

/-- Two motors sharing the class dictionary, the second random: legal, and the first is not affected. -/
example : LegalRun (⟨[[("i", (0 : ℚ))]], []⟩ : MWorld ℚ)
    [.new 0 0 ⟨[], none, none, none, none, none⟩ 1, .new 0 0 ⟨[], none, none, some .uniform, none, none⟩ 1,
     .reset 1 (fun _ => .ok ([-4], [4])) (fun _ _ _ _ _ _ => []) 0 [1 / 4]] := by
  refine ⟨⟨by decide, by decide, by simp⟩, ⟨by decide, by decide, ?_⟩, trivial, trivial⟩
  intro i o h
  simp only [mexec] at h
  rcases i with _ | i
  · simp at h; subst h; simp
  · simp at h

example : (mexec (mrun (⟨[[("i", (0 : ℚ))]], []⟩ : MWorld ℚ)
    [.new 0 0 ⟨[], none, none, none, none, none⟩ 1, .new 0 0 ⟨[], none, none, some .uniform, none, none⟩ 1,
     .reset 1 (fun _ => .ok ([-4], [4])) (fun _ _ _ _ _ _ => []) 0 [1 / 4]])
    (.reset 0 (fun _ => .ok ([-4], [4])) (fun _ _ _ _ _ _ => []) 0 [])).2 = .ok [0] := by decide +kernel

/-- Squirrel cage motor after two doubly fed ones. -/
example : (scimLimits (afterDfims 2) [("omega", (419 : ℚ)), ("torque", 0), ("i", 5), ("epsilon", 3), ("u", 560)]
    [("omega", (419 : ℚ)), ("torque", 0), ("i", 4), ("epsilon", 3), ("u", 560)] 3 (fun _ _ => .ok 1) [] []).map
      (fun r => (lookup r.1 "i_ra", lookup r.1 "u_rq", lookup r.1 "i_sq")) = .ok (some 5, some 280, some 5) := by
  decide +kernel

example : (scimLimits (afterDfims 0) [("omega", (419 : ℚ)), ("torque", 0), ("i", 5), ("epsilon", 3), ("u", 560)]
    [("omega", (419 : ℚ)), ("torque", 0), ("i", 4), ("epsilon", 3), ("u", 560)] 3 (fun _ _ => .ok 1) [] []).map
      (fun r => (lookup r.1 "i_ra", lookup r.1 "u_rq", lookup r.1 "i_sq")) = .ok (none, none, some 5) := by
  decide +kernel

end GEM.Props
