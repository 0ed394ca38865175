import Mathlib.Tactic.Module
import Mathlib.Tactic.FieldSimp
import Mathlib.Data.Rat.Defs
import Mathlib.Algebra.Module.Pi
import Verif.Model.Alias
import Verif.Props.Systems
import Verif.Props.Utils
import Verif.Props.Wrappers

/-!
# C99: solvers see the derivatives of the system; C100: environments of one class are independent; C101: delayed actions
-/

set_option linter.unusedSectionVars false

namespace GEM.Props

open GEM GEM.Alias GEM.Sys GEM.Wrap

section rhs

variable {K : Type} [Field K] {n m : ℕ} {U : Type}

/-- A solver copies, or uses up, every array before it calls the right-hand side again, and does not come back to the array. -/
inductive Copying {K Y : Type} : Prog K Y → Prop
  | done (y : Y) : Copying (.done y)
  | eval (t : K) (y : Y) (k : Y → Prog K Y) (h : ∀ v, Copying (k v)) : Copying (.eval t y fun a => .read a k)

theorem copying_agree {Y : Type} {rhs : Option Y → K → Y → Y} {f : K → Y → Y} (hr : ∀ ph t y, rhs ph t y = f t y)
    {p : Prog K Y} (hp : Copying p) : ∀ (c : ℕ) (ph : Option Y) (store : List Y), p.system rhs c ph = p.fresh f store := by
  induction hp with
  | done y => intros; rfl
  | eval t y k _ ih =>
    intro c ph store
    simp only [Prog.system, Prog.fresh]
    rw [if_pos (Nat.lt_succ_self c), hr]
    simp only [List.getElem?_concat_length]
    exact ih _ _ _ _

theorem systemEquation_scratch (mechOde : K → (Fin n → K) → K → Fin n → K) (torque : (Fin m → K) → K)
    (elOde : (Fin m → K) → U → K → Fin m → K) (k : Fin n) (u : U) (ph : Option (Fin (n + m) → K)) (t : K)
    (y : Fin (n + m) → K) :
    systemEquation mechOde torque elOde k ph t y u = systemEquation mechOde torque elOde k none t y u := by
  cases ph with
  | none => rfl
  | some old => exact c60_scratch ..

variable (mechOde : K → (Fin n → K) → K → Fin n → K) (torque : (Fin m → K) → K)
  (elOde : (Fin m → K) → U → K → Fin m → K) (k : Fin n) (u : U)

/-- C99 for solvers that copy: the shared array is not noticed, whatever was computed before. -/
theorem c99_partial {p : Prog K (Fin (n + m) → K)} (hp : Copying p) (c : ℕ) (ph : Option (Fin (n + m) → K))
    (store : List (Fin (n + m) → K)) :
    p.system (fun ph t y => systemEquation mechOde torque elOde k ph t y u) c ph =
      p.fresh (fun t y => systemEquation mechOde torque elOde k none t y u) store :=
  copying_agree (fun ph t y => systemEquation_scratch mechOde torque elOde k u ph t y) hp c ph store

theorem nsteps_copying {Y : Type} [AddCommGroup Y] [Module K Y] (tau : K) (c : ℕ) (t : K) (y : Y) :
    Copying (nstepsProg tau c t y) := by
  induction c generalizing t y with
  | zero => exact .done _
  | succ c ih => exact .eval _ _ _ fun v => ih _ _

theorem nsteps_fresh {Y : Type} [AddCommGroup Y] [Module K Y] (f : K → Y → Y) (tau : K) (c : ℕ) (t : K) (y : Y) (store : List Y) :
    (nstepsProg tau c t y).fresh f store = some (Solver.nstepsLoop f tau c t y) := by
  induction c generalizing t y store with
  | zero => rfl
  | succ c ih =>
    simp only [nstepsProg, Prog.fresh, List.getElem?_concat_length]
    rw [ih]
    rfl

/-- The repository's Euler solver copies: with the shared array it returns what it would with derivatives of its own. -/
theorem c99_euler (s : Solver.Euler K (Fin (n + m) → K)) (hs : s.nsteps ≠ 0) (t : K) (c : ℕ)
    (ph : Option (Fin (n + m) → K)) :
    (eulerProg s t).system (fun ph t y => systemEquation mechOde torque elOde k ph t y u) c ph =
      (s.integrate (fun t y => systemEquation mechOde torque elOde k none t y u) t).2.toOption := by
  have hc : Copying (eulerProg s t) := by
    unfold eulerProg
    split
    · exact .eval _ _ _ fun v => .done _
    · exact nsteps_copying ..
  rw [c99_partial mechOde torque elOde k u hc c ph []]
  unfold eulerProg Solver.Euler.integrate
  by_cases h1 : s.nsteps = 1
  · rw [if_pos h1, if_pos h1]
    rfl
  · rw [if_neg h1, if_neg h1, if_neg hs, nsteps_fresh]
    rfl

/-- C99 is violated by every solver that calls the right-hand side twice before it uses the first result. Heun's method, written
down as in a textbook, computes an Euler step with the derivative at the end; its result is right only if the two
derivatives agree. -/
theorem c99_heun_violated [CharZero K] (tau t : K) (ht : tau ≠ 0) (y : Fin (n + m) → K) (c : ℕ)
    (ph : Option (Fin (n + m) → K)) :
    let f := fun t y => systemEquation mechOde torque elOde k none t y u
    let g := fun ph t y => systemEquation mechOde torque elOde k ph t y u
    (heunProg tau t y).fresh f [] = some (y + (tau / 2) • (f t y + f (t + tau) (y + tau • f t y))) ∧
    (heunProg tau t y).system g c ph = some (y + tau • f (t + tau) (y + tau • f t y)) ∧
    ((heunProg tau t y).system g c ph = (heunProg tau t y).fresh f [] ↔ f (t + tau) (y + tau • f t y) = f t y) := by
  intro f g
  have h1 : (heunProg tau t y).fresh f [] = some (y + (tau / 2) • (f t y + f (t + tau) (y + tau • f t y))) := rfl
  have h2 : (heunProg tau t y).system g c ph = some (y + tau • f (t + tau) (y + tau • f t y)) := by
    have e : ∀ ph t y, g ph t y = f t y := fun ph t y => systemEquation_scratch mechOde torque elOde k u ph t y
    simp only [heunProg, Prog.system, e]
    rw [if_pos (by omega), if_pos (by omega), if_pos (by omega)]
    congr 1
    rw [← two_smul K (f (t + tau) (y + tau • f t y)), smul_smul, div_mul_cancel₀ _ (two_ne_zero)]
  refine ⟨h1, h2, ?_⟩
  rw [h1, h2, Option.some_inj, add_right_inj]
  generalize f (t + tau) (y + tau • f t y) = b
  generalize f t y = a
  constructor
  · intro h
    have h3 : (tau / 2) • (b - a) = 0 := by
      have : tau • b = (tau / 2) • b + (tau / 2) • b := by rw [← add_smul, add_halves]
      rw [this, smul_add, add_comm ((tau / 2) • a)] at h
      rw [smul_sub, add_left_cancel h, sub_self]
    rcases smul_eq_zero.1 h3 with h4 | h4
    · exact absurd h4 (div_ne_zero ht two_ne_zero)
    · exact sub_eq_zero.1 h4
  · rintro rfl
    rw [smul_add, ← add_smul, add_halves]

/-- C99 is violated by `ScipySolveIvpSolver` with its explicit methods: the size of the first step is chosen as if the
derivative did not change, and the first stage of the first step is the derivative at the trial point. With derivatives of its
own it would use `f t y`. -/
theorem c99_ivp_violated (trial : (Fin (n + m) → K) → K) (size : (Fin (n + m) → K) → (Fin (n + m) → K) → K)
    (stages : K → (Fin (n + m) → K) → Prog K (Fin (n + m) → K)) (hst : ∀ h v, Copying (stages h v)) (t : K)
    (y : Fin (n + m) → K) (c : ℕ) (ph : Option (Fin (n + m) → K)) :
    let f := fun t y => systemEquation mechOde torque elOde k none t y u
    let g := fun ph t y => systemEquation mechOde torque elOde k ph t y u
    let f0 := f t y
    let f1 := f (t + trial f0) (y + trial f0 • f0)
    (ivpProg trial size stages t y).fresh f [] = (stages (size f0 f1) f0).fresh f [] ∧
    (ivpProg trial size stages t y).system g c ph = (stages (size f1 f1) f1).fresh f [] := by
  intro f g f0 f1
  have e : ∀ ph t y, g ph t y = f t y := fun ph t y => systemEquation_scratch mechOde torque elOde k u ph t y
  constructor
  · have h := copying_agree (rhs := fun _ => f) (fun _ _ _ => rfl) (hst (size f0 f1) f0) 0 none
    have : (ivpProg trial size stages t y).fresh f [] = (stages (size f0 f1) f0).fresh f [f0, f1] := rfl
    rw [this, ← h [f0, f1], h []]
  · have : (ivpProg trial size stages t y).system g c ph = (stages (size f1 f1) f1).system g (c + 1 + 1) (some f1) := by
      simp only [ivpProg, Prog.system, e]
      rw [if_pos (by omega), if_pos (by omega), if_pos (by omega), if_pos (by omega)]
    rw [this]
    exact copying_agree e (hst _ _) _ _ _

end rhs

/-- a load `ω' = T - ω` with a motor whose "current" grows by 1 per second and is the torque: from 0, Heun's method with step 1
gives 1/2 for the speed, with the shared array it gives 1 -/
example :
    let mech : ℚ → (Fin 1 → ℚ) → ℚ → Fin 1 → ℚ := fun _ l T => ![T - l 0]
    let el : (Fin 1 → ℚ) → Unit → ℚ → Fin 1 → ℚ := fun _ _ _ => ![1]
    ((heunProg 1 0 ![0, 0]).fresh (fun t y => systemEquation mech (fun i => i 0) el 0 none t y ()) []).map (· 0)
      = some (1 / 2) ∧
    ((heunProg 1 0 ![0, 0]).system (fun ph t y => systemEquation mech (fun i => i 0) el 0 ph t y ()) 0 none).map (· 0)
      = some 1 := by
  intro mech el
  have h := c99_heun_violated (K := ℚ) mech (fun i => i 0) el 0 () 1 0 one_ne_zero (![0, 0] : Fin (1 + 1) → ℚ) 0 none
  simp only at h
  constructor
  · erw [h.1]
    simp [systemEquation, mech, el, Fin.append, Matrix.vecHead]
    norm_num [Fin.addCases]
  · erw [h.2.1]
    simp [systemEquation, mech, el, Fin.append, Matrix.vecHead]
    norm_num [Fin.addCases]

/-! ## C100 -/

section constraints

variable {K : Type} [Field K] [LinearOrder K] [IsStrictOrderedRing K]

theorem makeAll_last (states : List String) (ls : List (Layout K)) (l : Layout K) (m m' : List ℕ × List K × Bool)
    (h : makeAll states (ls ++ [l]) m = .ok m') : Constr.squaredModules l.names l.high l.limits states = .ok m' := by
  induction ls generalizing m with
  | nil =>
    simp only [List.nil_append, makeAll] at h
    cases hm : Constr.squaredModules l.names l.high l.limits states with
    | error e => simp [hm] at h
    | ok x => simpa [hm] using h
  | cons a ls ih =>
    simp only [List.cons_append, makeAll] at h
    cases hm : Constr.squaredModules a.names a.high a.limits states with
    | error e => simp [hm] at h
    | ok x =>
      simp only [hm] at h
      exact ih _ h

/-- C100 if all environments of the class have the constrained states at the same positions, with the same limits and highest
values: every environment is checked as if it were alone. -/
theorem c100_partial (states : List String) (ls : List (Layout K)) (m m' : List ℕ × List K × Bool) (l : Layout K)
    (hl : l ∈ ls) (h : makeAll states ls m = .ok m')
    (heq : ∀ a ∈ ls, ∀ s ∈ states, a.names.idxOf s = l.names.idxOf s ∧
      a.limits.getD (a.names.idxOf s) 0 = l.limits.getD (l.names.idxOf s) 0 ∧
      a.high.getD (a.names.idxOf s) 0 = l.high.getD (l.names.idxOf s) 0)
    (hmem : ∀ s ∈ states, s ∈ l.names) (state : List K) :
    ∃ own, Constr.squaredModules l.names l.high l.limits states = .ok own ∧
      Constr.squaredCall m' state = Constr.squaredCall own state := by
  obtain ⟨ls', a, rfl⟩ : ∃ ls' a, ls = ls' ++ [a] := by
    have : ls ≠ [] := by
      rintro rfl
      simp at hl
    exact ⟨ls.dropLast, ls.getLast this, (List.dropLast_append_getLast this).symm⟩
  have h' := makeAll_last states ls' a m m' h
  refine ⟨m', ?_, rfl⟩
  rw [← h']
  have ha := heq a (by simp)
  simp only [Constr.squaredModules] at h' ⊢
  rw [if_pos hmem]
  split at h'
  · rename_i hma
    rw [if_pos hma]
    have i1 : states.map l.names.idxOf = states.map a.names.idxOf := List.map_congr_left fun s hs => ((ha s hs).1).symm
    have i2 : (states.map l.names.idxOf).map (fun i => l.limits.getD i 0) =
        (states.map a.names.idxOf).map (fun i => a.limits.getD i 0) := by
      rw [List.map_map, List.map_map]
      exact List.map_congr_left fun s hs => ((ha s hs).2.1).symm
    have i3 : (states.map l.names.idxOf).map (fun i => l.high.getD i 0) =
        (states.map a.names.idxOf).map (fun i => a.high.getD i 0) := by
      rw [List.map_map, List.map_map]
      exact List.map_congr_left fun s hs => ((ha s hs).2.2).symm
    rw [i2, i3, i1]
  · simp at h'

theorem sq_zero {m : List ℕ × List K × Bool} {state : List K} (h : ∀ i ∈ m.1, state.getD i 0 = 0) :
    Constr.squaredCall m state = 0 := by
  have e : m.1.map (fun i => state.getD i 0) = m.1.map fun _ => 0 := List.map_congr_left h
  have z : ∀ l : List K, (∀ x ∈ l, x = 0) → (l.map (· ^ 2)).sum = 0 := by
    intro l hl
    induction l with
    | nil => rfl
    | cons a l ih =>
      rw [List.map_cons, List.sum_cons, ih fun x hx => hl x (List.mem_cons_of_mem _ hx), hl a (by simp)]
      simp
  unfold Constr.squaredCall
  simp only [e]
  rw [if_neg]
  rw [z]
  · exact not_lt.mpr zero_le_one
  · split
    · intro x hx
      simp at hx
      exact hx.2
    · intro x hx
      rw [List.mem_iff_getElem] at hx
      obtain ⟨i, hi, rfl⟩ := hx
      simp

/-- C100 is violated whenever the environments place the constrained states differently. A constrained state of the earlier,
normalised environment is at a position `p` where the later one has none: the value 2 there, twice the limit, is a violation
for the environment alone, and is not noticed after the other environment has been made. -/
theorem c100_violated (states : List String) (first second : Layout K) (m : List ℕ × List K × Bool)
    (h1 : ∀ s ∈ states, s ∈ first.names) (h2 : ∀ s ∈ states, s ∈ second.names) (s : String) (hs : s ∈ states)
    (hn : first.high.getD (first.names.idxOf s) 0 ≠ first.limits.getD (first.names.idxOf s) 0)
    (hp : ∀ s' ∈ states, second.names.idxOf s' ≠ first.names.idxOf s) :
    ∃ own m', Constr.squaredModules first.names first.high first.limits states = .ok own ∧
      makeAll states [first, second] m = .ok m' ∧
      Constr.squaredCall own ((List.replicate first.names.length 0).set (first.names.idxOf s) 2) = 1 ∧
      Constr.squaredCall m' ((List.replicate first.names.length 0).set (first.names.idxOf s) 2) = 0 := by
  have hlen : first.names.idxOf s < first.names.length := List.idxOf_lt_length_of_mem (h1 s hs)
  simp only [makeAll, Constr.squaredModules, if_pos h1, if_pos h2]
  refine ⟨_, _, rfl, rfl, ?_, ?_⟩
  · have hflag : (!decide ((states.map first.names.idxOf).map (fun i => first.high.getD i 0) =
        (states.map first.names.idxOf).map (fun i => first.limits.getD i 0))) = true := by
      simp only [Bool.not_eq_true', decide_eq_false_iff_not]
      intro he
      rw [List.map_map, List.map_map, List.map_inj_left] at he
      exact hn (he s hs)
    unfold Constr.squaredCall
    simp only [hflag, if_true]
    rw [if_pos]
    generalize first.names.length = len at hlen
    have hm : (2 : K) ^ 2 ∈ ((states.map first.names.idxOf).map
        (fun i => ((List.replicate len (0 : K)).set (first.names.idxOf s) 2).getD i 0)).map (· ^ 2) := by
      rw [List.map_map, List.mem_map]
      refine ⟨first.names.idxOf s, List.mem_map.2 ⟨s, hs, rfl⟩, ?_⟩
      simp [List.getD_eq_getElem?_getD, hlen]
    have := List.single_le_sum (by
        intro x hx
        rw [List.mem_map] at hx
        obtain ⟨y, _, rfl⟩ := hx
        exact sq_nonneg y) _ hm
    have h4 : (1 : K) < 2 ^ 2 := by norm_num
    exact lt_of_lt_of_le h4 this
  · apply sq_zero
    intro i hi
    rw [List.mem_map] at hi
    obtain ⟨s', hs', rfl⟩ := hi
    rw [List.getD_eq_getElem?_getD, List.getElem?_set_ne (hp s' hs').symm, List.getElem?_replicate]
    split <;> rfl

/-- Two synchronous machines, the second with a load of two states, which come first. -/
example : ∃ own m', Constr.squaredModules ["omega", "torque", "i_sd", "i_sq"] [1, 1, 1, 1] [9, 9, 5, (5 : ℚ)] ["i_sq", "i_sd"] = .ok own ∧
    makeAll ["i_sq", "i_sd"] [⟨["omega", "torque", "i_sd", "i_sq"], [1, 1, 1, 1], [9, 9, 5, (5 : ℚ)]⟩,
      ⟨["omega", "position", "torque", "i_sd", "i_sq"], [1, 1, 1, 1, 1], [9, 9, 9, 5, 5]⟩] ([], [], false) = .ok m' ∧
    Constr.squaredCall own [0, 0, 2, 0] = 1 ∧ Constr.squaredCall m' [0, 0, 2, 0] = 0 := by
  have := c100_violated ["i_sq", "i_sd"] ⟨["omega", "torque", "i_sd", "i_sq"], [1, 1, 1, 1], [9, 9, 5, (5 : ℚ)]⟩
    ⟨["omega", "position", "torque", "i_sd", "i_sq"], [1, 1, 1, 1, 1], [9, 9, 9, 5, 5]⟩ ([], [], false) (by simp) (by simp) "i_sd"
    (by simp) (by simp [List.idxOf, List.findIdx, List.findIdx.go])
    (by simp [List.idxOf, List.findIdx, List.findIdx.go])
  simpa [List.idxOf, List.findIdx, List.findIdx.go, List.replicate] using this

/-- C100 is violated by a limit constraint on `"all_states"` that is used for two environments: it remains a constraint on the
states of the first. Every further state of the second is unchecked, whatever its value. -/
theorem c100_limit_violated (names1 names2 obs' obs'' : List String) (mask1 mask2 : List Bool)
    (h1 : limitModules (K := K) id names1 ["all_states"] = .ok (obs', mask1)) (hall : "all_states" ∉ names1)
    (h2 : limitModules (K := K) id names2 obs' = .ok (obs'', mask2)) (i : ℕ) (hi : i < names2.length)
    (hnew : names2[i] ∉ names1) (x : K) :
    Constr.limitCall mask2 ((List.replicate names2.length 0).set i x) = .ok 0 := by
  have e1 : obs' = names1 := by
    simp only [limitModules, List.mem_singleton, if_true] at h1
    split at h1 <;> simp at h1
    exact h1.1.symm
  subst e1
  have hm : Constr.limitMask (K := K) id "all_states" names2 (some obs') = .ok mask2 := by
    simp only [limitModules] at h2
    split at h2 <;> simp at h2
    rename_i hm
    rw [hm, h2.2]
  obtain ⟨v, hv, h01, hiff⟩ := c08_exact (K := K) id "all_states" names2 obs' mask2 (fun _ _ => rfl) hm
    ((List.replicate names2.length 0).set i x) (by simp)
  rw [hv]
  rcases h01 with h | h
  · rw [h]
  · exfalso
    obtain ⟨j, hj, y, hy, hlt, hor⟩ := hiff.1 h
    rcases hor with ha | ⟨n, hn, he⟩
    · exact hall ha
    · by_cases hji : j = i
      · subst hji
        exact hnew (he ▸ hn)
      · rw [List.getElem?_set_ne (Ne.symm hji), List.getElem?_replicate] at hy
        simp [hj] at hy
        rw [← hy] at hlt
        simp at hlt
        exact absurd hlt (not_lt.mpr zero_le_one)

/-- a flux observer adds a state to the second environment -/
example : ∃ mask1 obs' mask2, limitModules (K := ℚ) id ["omega", "i"] ["all_states"] = .ok (["omega", "i"], mask1) ∧
    limitModules (K := ℚ) id ["omega", "i", "psi_abs"] ["omega", "i"] = .ok (obs', mask2) ∧
    Constr.limitCall mask2 [0, 0, (5 : ℚ)] = .ok 0 ∧ Constr.limitCall mask2 [0, 5, (0 : ℚ)] = .ok 1 := by
  refine ⟨[true, true], ["omega", "i"], [true, true, false], ?_, ?_, ?_, ?_⟩
  · simp [limitModules, Constr.limitMask, Utils.setStateArray, Utils.stateDictToStateArray, Utils.lookup]
  · simp [limitModules, Constr.limitMask, Utils.setStateArray, Utils.stateDictToStateArray, Utils.lookup]
  · norm_num [Constr.limitCall]
  · norm_num [Constr.limitCall]

end constraints

/-! ## C101 -/

section actions

variable {σ A : Type}

/-- what is in the arrays handed to the system in each step: `rs` the arrays, `l` what the agent writes before each step -/
def contents : (ℕ → A) → List ℕ → List (ℕ × A) → List A
  | h, r :: rs, (q, a) :: l => Function.update h q a r :: contents (Function.update h q a) rs l
  | _, _, _ => []

theorem act_runs (n : ℕ) (ra : ℕ → List ℕ) (s : PSys σ A) (l : List (ℕ × A)) (st : σ) (h : ℕ → A) (d : List ℕ) (k : ℕ)
    (h0 : d ≠ []) (hn : d.length ≤ n) :
    act n ra s ((st, h), ⟨d, k⟩) l = (runs s st (contents h (d.reverse ++ l.map Prod.fst) l)).2 := by
  induction l generalizing st h d with
  | nil =>
    cases hd : d.reverse ++ ([] : List (ℕ × A)).map Prod.fst <;> rfl
  | cons x l ih =>
    obtain ⟨r, a⟩ := x
    obtain ⟨d', y, rfl⟩ : ∃ d' y, d = d' ++ [y] := ⟨d.dropLast, d.getLast h0, (List.dropLast_append_getLast h0).symm⟩
    have hl : d'.length + 1 ≤ n := by simpa using hn
    have e1 : (deadTime n ra (deref s)).simulate ((st, Function.update h r a), ⟨d' ++ [y], k⟩) r =
        ((((s.simulate st (Function.update h r a y)).1, Function.update h r a), ⟨r :: d', k⟩),
          (s.simulate st (Function.update h r a y)).2) := by
      simp [deadTime, deref, appendLeft, List.take_of_length_le, hl]
    have e2 : (d' ++ [y]).reverse ++ ((r, a) :: l).map Prod.fst = y :: ((r :: d').reverse ++ l.map Prod.fst) := by simp
    rw [e2, contents, runs]
    simp only [act]
    rw [e1]
    simp only
    rw [ih _ _ (r :: d') (by simp) (by simpa using hl)]

theorem contents_fresh (h : ℕ → A) (d : List ℕ) (l : List (ℕ × A)) (hnd : (d ++ l.map Prod.fst).Nodup) :
    contents h (d ++ l.map Prod.fst) l = (d.map h ++ l.map Prod.snd).take l.length := by
  induction l generalizing h d with
  | nil => cases d <;> simp [contents]
  | cons x l ih =>
    obtain ⟨r, a⟩ := x
    cases d with
    | nil =>
      simp only [List.nil_append, List.map_cons, contents, List.map_nil]
      have := ih (Function.update h r a) [] (by simpa using (List.nodup_cons.1 (by simpa using hnd)).2)
      simp only [List.nil_append, List.map_nil] at this
      rw [this]
      simp
    | cons y d =>
      have e : d ++ ((r, a) :: l).map Prod.fst = (d ++ [r]) ++ l.map Prod.fst := by simp
      have hnd' : (y :: ((d ++ [r]) ++ l.map Prod.fst)).Nodup := by
        rw [← e]
        exact hnd
      have hy : y ≠ r := fun h => (List.nodup_cons.1 hnd').1 (by simp [h])
      rw [List.cons_append, e, contents, ih _ (d ++ [r]) (List.nodup_cons.1 hnd').2]
      have hr : r ∉ d := by
        have := (List.nodup_append.1 (List.nodup_append.1 (List.nodup_cons.1 hnd').2).1).2.2
        intro hd
        exact this r hd r (by simp) rfl
      have hm : d.map (Function.update h r a) = d.map h := List.map_congr_left fun z hz => by
        rw [Function.update_of_ne]
        rintro rfl
        exact hr hz
      rw [Function.update_of_ne hy, List.map_append, hm]
      simp

theorem contents_reused (h : ℕ → A) (d : List ℕ) (q : ℕ) (as : List A) (hq : q ∉ d) :
    contents h (d ++ as.map fun _ => q) (as.map fun a => (q, a)) = (d.map h).take as.length ++ as.drop d.length := by
  induction as generalizing h d with
  | nil => cases d <;> simp [contents]
  | cons a as ih =>
    cases d with
    | nil =>
      simp only [List.nil_append, List.map_cons, contents]
      have := ih (Function.update h q a) [] (by simp)
      simp only [List.nil_append] at this
      rw [this]
      simp
    | cons y d =>
      have e : d ++ (a :: as).map (fun _ => q) = (d ++ as.map fun _ => q) ++ [q] := by
        rw [List.map_cons, List.append_assoc]
        congr 1
        rw [List.map_const', ← List.replicate_succ, ← List.replicate_succ']
      have trunc : ∀ (h : ℕ → A) (rs : List ℕ) (l : List (ℕ × A)), l.length ≤ rs.length →
          contents h (rs ++ [q]) l = contents h rs l := by
        intro h rs l
        induction l generalizing h rs with
        | nil =>
          intro _
          cases rs <;> rfl
        | cons x l ih =>
          intro hl
          cases rs with
          | nil => simp at hl
          | cons r rs =>
            simp only [List.cons_append, contents]
            rw [ih _ _ (by simpa using hl)]
      have hqy : q ≠ y := fun h => hq (by simp [h])
      have hqd : q ∉ d := fun h => hq (by simp [h])
      rw [List.cons_append, e, List.map_cons, contents, trunc _ _ _ (by simp), ih _ _ hqd]
      have hm : d.map (Function.update h q a) = d.map h := List.map_congr_left fun z hz => by
        rw [Function.update_of_ne]
        rintro rfl
        exact hqd hz
      rw [Function.update_of_ne hqy.symm, hm]
      simp

/-- C101 if the agent hands over a new array in every step: the system receives the reset actions and then the actions of `n`
steps before. -/
theorem c101_partial (n : ℕ) (hn : 0 < n) (ra : ℕ → List ℕ) (s : PSys σ A) (st : (σ × (ℕ → A)) × DeadSt ℕ) (v : List ℝ)
    (hr : (s.reset st.1.1).2 = .ok v) (hl : (ra st.2.resets).length = n) (l : List (ℕ × A))
    (hnd : ((ra st.2.resets).reverse ++ l.map Prod.fst).Nodup) :
    act n ra s ((deadTime n ra (deref s)).reset st).1 l =
      (runs s (s.reset st.1.1).1 (((ra st.2.resets).reverse.map st.1.2 ++ l.map Prod.snd).take l.length)).2 := by
  rw [deadTime_reset n ra (deref s) st v hr]
  have e : extend n [] (ra st.2.resets) = ra st.2.resets := by rw [extend_nil, hl]; simp
  rw [e]
  have := act_runs n ra s l (s.reset st.1.1).1 st.1.2 (ra st.2.resets) (st.2.resets + 1)
    (by intro h; rw [h] at hl; simp at hl; omega) hl.le
  rw [contents_fresh _ _ _ hnd] at this
  exact this

/-- C101 is violated if the agent uses one array for all its actions: after the reset actions the system receives the newest
action in every step; the dead time has no effect. -/
theorem c101_violated (n : ℕ) (hn : 0 < n) (ra : ℕ → List ℕ) (s : PSys σ A) (st : (σ × (ℕ → A)) × DeadSt ℕ) (v : List ℝ)
    (hr : (s.reset st.1.1).2 = .ok v) (hl : (ra st.2.resets).length = n) (q : ℕ) (hq : q ∉ ra st.2.resets) (as : List A) :
    act n ra s ((deadTime n ra (deref s)).reset st).1 (as.map fun a => (q, a)) =
      (runs s (s.reset st.1.1).1 (((ra st.2.resets).reverse.map st.1.2).take as.length ++ as.drop n)).2 := by
  rw [deadTime_reset n ra (deref s) st v hr]
  have e : extend n [] (ra st.2.resets) = ra st.2.resets := by rw [extend_nil, hl]; simp
  rw [e]
  have := act_runs n ra s (as.map fun a => (q, a)) (s.reset st.1.1).1 st.1.2 (ra st.2.resets) (st.2.resets + 1)
    (by intro h; rw [h] at hl; simp at hl; omega) hl.le
  rw [List.map_map] at this
  have h2 := contents_reused st.1.2 (ra st.2.resets).reverse q as (by simpa using hq)
  rw [List.length_reverse, hl] at h2
  erw [h2] at this
  exact this

/-- Dead time 2, reset actions 0: an agent that reuses the array 7 commands 3, 4, 5, 6; the system receives 0, 0, 5, 6. With
arrays of their own it receives 0, 0, 3, 4. -/
example (st : (Unit × (ℕ → ℝ)) × DeadSt ℕ) (h : st.1.2 0 = 0) (h1 : st.1.2 1 = 0) :
    act 2 (fun _ => [0, 1]) echo ((deadTime 2 (fun _ => [0, 1]) (deref echo)).reset st).1 [(7, 3), (7, 4), (7, 5), (7, 6)] =
      [.ok [0], .ok [0], .ok [5], .ok [6]] ∧
    act 2 (fun _ => [0, 1]) echo ((deadTime 2 (fun _ => [0, 1]) (deref echo)).reset st).1 [(6, 3), (7, 4), (8, 5), (9, 6)] =
      [.ok [0], .ok [0], .ok [3], .ok [4]] := by
  constructor
  · have := c101_violated 2 (by norm_num) (fun _ => [0, 1]) echo st [0] rfl rfl 7 (by simp) [3, 4, 5, 6]
    simp only [List.map_cons, List.map_nil] at this
    rw [this, runs_echo]
    simp [h, h1]
  · rw [c101_partial 2 (by norm_num) (fun _ => [0, 1]) echo st [0] rfl rfl _ (by simp), runs_echo]
    simp [h, h1]

end actions

end GEM.Props
