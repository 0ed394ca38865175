import Verif.Model.Examples
import Verif.Props.Env
import Verif.Props.Holding

/-!
# C144: the classes of the example notebooks;  C145: the grid example
-/

set_option linter.unusedSectionVars false

namespace GEM.Props

noncomputable section

open GEM GEM.Wrap GEM.Core GEM.Examples

variable {σ A : Type}

/-! ## C144: the length of the current vector -/

theorem getE_of {v : List ℝ} {i : ℕ} (h : i < v.length) : Wrap.getE v i = .ok (v.getD i 0) := by
  unfold Wrap.getE
  simp [List.getElem?_eq_getElem h, List.getD]

/-- C144, partial: the wrapper of the cookbook keeps the states of the inner system and appends one more, with a name, a limit and a nominal value, in
`reset` and `simulate`. -/
theorem c144_current_partial (s w : PSys σ A) (h : currentVector s = .ok w) :
    w.names = s.names ++ ["i_abs"] ∧ w.limits.length = s.limits.length + 1 ∧ w.nominal.length = s.nominal.length + 1 ∧
    (∀ st v, (s.reset st).2 = .ok v → v.length = s.names.length → ∃ x, 0 ≤ x ∧ w.reset st = ((s.reset st).1, .ok (v ++ [x]))) ∧
    ∀ st a v, (s.simulate st a).2 = .ok v → v.length = s.names.length → ∃ x, 0 ≤ x ∧ w.simulate st a = ((s.simulate st a).1, .ok (v ++ [x])) := by
  unfold currentVector at h
  obtain ⟨q, hq, h⟩ := Init.bind_ok h
  obtain ⟨d, hd, h⟩ := Init.bind_ok h
  obtain ⟨ld, -, h⟩ := Init.bind_ok h
  obtain ⟨lq, -, h⟩ := Init.bind_ok h
  obtain ⟨nd, -, h⟩ := Init.bind_ok h
  obtain ⟨nq, -, h⟩ := Init.bind_ok h
  simp only [Except.ok.injEq] at h
  subst h
  have hlt : ∀ i, Wrap.indexOf s.names "i_sq" = .ok i → i < s.names.length := fun i hi => by
    unfold Wrap.indexOf at hi
    split_ifs at hi with hm
    cases hi
    exact List.idxOf_lt_length_of_mem hm
  have key : ∀ v : List ℝ, v.length = s.names.length → ∃ x, 0 ≤ x ∧ withAbs d q v = .ok (v ++ [x]) := fun v hv => by
    refine ⟨√(v.getD d 0 ^ 2 + v.getD q 0 ^ 2), Real.sqrt_nonneg _, ?_⟩
    unfold withAbs
    rw [getE_of (by rw [hv]; exact hlt _ hd), getE_of (by rw [hv]; exact hlt _ hq)]
    rfl
  refine ⟨rfl, by simp, by simp, fun st v hv hl => ?_, fun st a v hv hl => ?_⟩ <;> obtain ⟨x, h0, hx⟩ := key v hl <;> refine ⟨x, h0, ?_⟩ <;>
    simp only [post, hv, Except.bind, hx]

/-- C144 is violated: the appended state is not the length of the current vector but √2 |i_sq|, whatever `i_sd` is. -/
theorem c144_current_violated (s w : PSys σ A) (h : currentVector s = .ok w) (st : σ) (a : A) (v : List ℝ) (hv : (s.simulate st a).2 = .ok v)
    (hl : v.length = s.names.length) :
    (w.simulate st a).2 = .ok (v ++ [√2 * |v.getD (s.names.idxOf "i_sq") 0|]) := by
  unfold currentVector at h
  obtain ⟨q, hq, h⟩ := Init.bind_ok h
  obtain ⟨d, hd, h⟩ := Init.bind_ok h
  obtain ⟨ld, -, h⟩ := Init.bind_ok h
  obtain ⟨lq, -, h⟩ := Init.bind_ok h
  obtain ⟨nd, -, h⟩ := Init.bind_ok h
  obtain ⟨nq, -, h⟩ := Init.bind_ok h
  simp only [Except.ok.injEq] at h
  subst h
  unfold Wrap.indexOf at hq hd
  split_ifs at hq hd with hm
  cases hq
  cases hd
  have hlt : s.names.idxOf "i_sq" < v.length := by
    rw [hl]
    exact List.idxOf_lt_length_of_mem hm
  simp only [post, hv, Except.bind, withAbs, getE_of hlt, Bind.bind]
  rw [← two_mul, Real.sqrt_mul (by norm_num), Real.sqrt_sq_eq_abs]

/-- a system with the two currents -/
def dqCurrents (x y : ℝ) : PSys Unit Unit :=
  { reset := fun _ => ((), .ok [x, y]), simulate := fun _ _ => ((), .ok [x, y]), names := ["i_sd", "i_sq"], pos := enumPos ["i_sd", "i_sq"]
    limits := [1, 1], nominal := [1, 1], low := [-1, -1], high := [1, 1], tau := 1 }

/-- i_sd = 3/5, i_sq = 4/5 (length 1): reported as 4√2/5 > 1; and i_sd = 1, i_sq = 0: reported as 0. -/
example : (∃ w, currentVector (dqCurrents (3 / 5) (4 / 5)) = .ok w ∧ (w.simulate () ()).2 = .ok [3 / 5, 4 / 5, √2 * |4 / 5|]) ∧
    ∃ w, currentVector (dqCurrents 1 0) = .ok w ∧ (w.simulate () ()).2 = .ok [1, 0, √2 * |0|] := by
  refine ⟨⟨_, rfl, ?_⟩, ⟨_, rfl, ?_⟩⟩
  · exact c144_current_violated (dqCurrents (3 / 5) (4 / 5)) _ rfl () () _ rfl rfl
  · exact c144_current_violated (dqCurrents 1 0) _ rfl () () _ rfl rfl

/-! ## C144: the constraint -/

/-- C144: the constraint of the cookbook is a violation degree in [0, 1], it is 1 (end of the episode) exactly if `i_sd` is at least half of its limit,
and 0 exactly if `i_sd` is not positive. -/
theorem c144_constraint (x : ℝ) : 0 ≤ myConstraint x ∧ myConstraint x ≤ 1 ∧ (1 ≤ myConstraint x ↔ 1 / 2 ≤ x) ∧ (myConstraint x = 0 ↔ x ≤ 0) := by
  unfold myConstraint
  refine ⟨?_, ?_, ⟨fun h => ?_, fun h => ?_⟩, ⟨fun h => ?_, fun h => ?_⟩⟩
  · have : 0 ≤ min (max x 0) (1 / 2) := le_min (le_max_right _ _) (by norm_num)
    linarith
  · have : min (max x 0) (1 / 2) ≤ 1 / 2 := min_le_right _ _
    linarith
  · by_contra hc
    have : min (max x 0) (1 / 2) < 1 / 2 := lt_of_le_of_lt (min_le_left _ _) (max_lt (not_le.1 hc) (by norm_num))
    linarith
  · rw [max_eq_left (by linarith), min_eq_right h]
    norm_num
  · by_contra hc
    have : 0 < min (max x 0) (1 / 2) := lt_min (lt_of_lt_of_le (not_le.1 hc) (le_max_left _ _)) (by norm_num)
    linarith
  · rw [max_eq_right h, min_eq_left (by norm_num), mul_zero]

/-! ## C144: the observation with cosine and sine -/

/-- The observation lies in the box. -/
def InBox (low high v : List ℝ) : Prop := List.Forall₂ (· ≤ ·) low v ∧ List.Forall₂ (· ≤ ·) v high

theorem forall2_take_drop {R : ℝ → ℝ → Prop} {a b : List ℝ} (h : List.Forall₂ R a b) (n : ℕ) :
    List.Forall₂ R (a.take n) (b.take n) ∧ List.Forall₂ R (a.drop n) (b.drop n) := by
  induction h generalizing n with
  | nil => simp
  | cons h1 h2 ih =>
    cases n with
    | zero => exact ⟨.nil, .cons h1 h2⟩
    | succ n => exact ⟨.cons h1 (ih n).1, (ih n).2⟩

/-- C144: for every observation in a box with bounds -1 and 1 for the angle, the observation of the DQN notebook lies in its box exactly if the
currents are within the unit circle. -/
theorem c144_feature (e d q : ℕ) (low high v : List ℝ) (hv : InBox low high v) (he : e < v.length) (hd : d < v.length) (hq : q < v.length)
    (hl : low.getD e 0 = -1) (hh : high.getD e 0 = 1) :
    ∃ w, feature e d q v = .ok w ∧ (InBox (featureLow e low) (featureHigh e high) w ↔ v.getD d 0 ^ 2 + v.getD q 0 ^ 2 ≤ 1) := by
  have l1 := hv.1.length_eq
  have l2 := hv.2.length_eq
  refine ⟨_, by unfold feature; rw [getE_of he, getE_of hq, getE_of hd]; rfl, ?_⟩
  have e1 : low.drop e = -1 :: low.drop (e + 1) := by
    have hlt : e < low.length := by omega
    rw [List.drop_eq_getElem_cons hlt, ← hl]
    simp [List.getD, hlt]
  have e2 : high.drop e = 1 :: high.drop (e + 1) := by
    have hlt : e < high.length := by omega
    rw [List.drop_eq_getElem_cons hlt, ← hh]
    simp [List.getD, hlt]
  unfold InBox featureLow featureHigh
  rw [e1, e2]
  have a1 := forall2_take_drop hv.1 e
  have a2 := forall2_take_drop hv.2 e
  have a3 := forall2_take_drop hv.1 (e + 1)
  have a4 := forall2_take_drop hv.2 (e + 1)
  constructor
  · rintro ⟨-, h⟩
    have h' := List.forall₂_reverse_iff.2 h
    simp only [List.reverse_append, List.reverse_cons, List.reverse_nil, List.nil_append, List.cons_append] at h'
    cases h' with
    | cons h1 _ => linarith
  · intro h
    constructor
    · simp only [List.append_assoc, List.cons_append, List.nil_append]
      exact List.rel_append a1.1 (.cons (Real.neg_one_le_cos _) (.cons (Real.neg_one_le_sin _) (List.rel_append a3.2 (.cons (by positivity) .nil))))
    · simp only [List.append_assoc, List.cons_append, List.nil_append]
      exact List.rel_append a2.1 (.cons (Real.cos_le_one _) (.cons (Real.sin_le_one _) (List.rel_append a4.2 (.cons (by linarith) .nil))))

/-- The bounds of the notebook: the observation at the end of an episode may lie outside (both currents at 4/5 of their limits). -/
example : ∃ w, feature 0 1 2 [0, 4 / 5, 4 / 5] = .ok w ∧ ¬ InBox (featureLow 0 [-1, -1, -1]) (featureHigh 0 [1, 1, 1]) w := by
  obtain ⟨w, h1, h2⟩ := c144_feature 0 1 2 [-1, -1, -1] [1, 1, 1] [0, 4 / 5, 4 / 5]
    ⟨by repeat' first | exact List.Forall₂.nil | refine List.Forall₂.cons (by norm_num) ?_,
      by repeat' first | exact List.Forall₂.nil | refine List.Forall₂.cons (by norm_num) ?_⟩ (by simp) (by simp) (by simp) rfl rfl
  refine ⟨w, h1, fun h => ?_⟩
  have := h2.1 h
  norm_num at this

/-- C144: nothing is lost: observations with the same features, angles in (-1, 1] (half turns), are equal. -/
theorem c144_feature_faithful (e d q : ℕ) (v v' w : List ℝ) (h : feature e d q v = .ok w) (h' : feature e d q v' = .ok w)
    (he : e < v.length) (he' : e < v'.length) (r : -1 < v.getD e 0 ∧ v.getD e 0 ≤ 1) (r' : -1 < v'.getD e 0 ∧ v'.getD e 0 ≤ 1) : v = v' := by
  have key : ∀ u : List ℝ, e < u.length → feature e d q u = .ok w → ∃ c, w = u.take e ++ ([Real.cos (u.getD e 0 * Real.pi),
      Real.sin (u.getD e 0 * Real.pi)] ++ (u.drop (e + 1) ++ [c])) := fun u hu h => by
    unfold feature at h
    rw [getE_of hu] at h
    obtain ⟨_, hx, h⟩ := Init.bind_ok h
    cases hx
    obtain ⟨y, -, h⟩ := Init.bind_ok h
    obtain ⟨z, -, h⟩ := Init.bind_ok h
    simp only [Except.ok.injEq] at h
    exact ⟨y ^ 2 + z ^ 2, by rw [← h]; simp⟩
  obtain ⟨c, hc⟩ := key v he h
  obtain ⟨c', hc'⟩ := key v' he' h'
  rw [hc] at hc'
  obtain ⟨e1, e2⟩ := List.append_inj hc' (by simp; omega)
  simp only [List.cons_append, List.nil_append, List.cons.injEq] at e2
  obtain ⟨ec, es, e3⟩ := e2
  have e4 : v.drop (e + 1) = v'.drop (e + 1) := (List.append_inj' e3 rfl).1
  have hp := Real.pi_pos
  have ea : v.getD e 0 = v'.getD e 0 := by
    have h1 := Complex.arg_cos_add_sin_mul_I (θ := v.getD e 0 * Real.pi) ⟨by nlinarith [r.1], by nlinarith [r.2]⟩
    have h2 := Complex.arg_cos_add_sin_mul_I (θ := v'.getD e 0 * Real.pi) ⟨by nlinarith [r'.1], by nlinarith [r'.2]⟩
    rw [← Complex.ofReal_cos, ← Complex.ofReal_sin, ec, es, Complex.ofReal_cos, Complex.ofReal_sin] at h1
    have := h1.symm.trans h2
    exact mul_right_cancel₀ hp.ne' this
  have split : ∀ u : List ℝ, e < u.length → u = u.take e ++ u.getD e 0 :: u.drop (e + 1) := fun u hu => by
    conv_lhs => rw [← List.take_append_drop e u, List.drop_eq_getElem_cons hu]
    simp [List.getD, hu]
  rw [split v he, split v' he', e1, e4, ea]

/-! ## C144: the last action -/

section last

variable {n : ℕ} {s : PSys σ (List ℝ)} {ra : ℕ → List (List ℝ)}

theorem last_step {st : (σ × DeadSt (List ℝ)) × List ℝ} {a : List ℝ} (h2 : st.1.2.deque = [a]) (b : List ℝ) :
    (lastAction n (deadTime 1 ra s)).simulate st b =
      match (s.simulate st.1.1 a).2 with
      | .error e => ((((s.simulate st.1.1 a).1, ⟨[b], st.1.2.resets⟩), st.2), .error e)
      | .ok v => ((((s.simulate st.1.1 a).1, ⟨[b], st.1.2.resets⟩), b), .ok (v ++ b)) := by
  simp only [lastAction, deadTime, h2, List.getLast?_singleton, appendLeft, List.take_succ_cons, List.take_zero]
  cases (s.simulate st.1.1 a).2 <;> rfl

theorem last_step' {st : (σ × DeadSt (List ℝ)) × List ℝ} {a : List ℝ} (h2 : st.1.2.deque = [a]) (b : List ℝ) :
    ((lastAction n (deadTime 1 ra s)).simulate st b).1.1.1 = (s.simulate st.1.1 a).1 ∧
      ((lastAction n (deadTime 1 ra s)).simulate st b).2 = (s.simulate st.1.1 a).2.map (· ++ b) := by
  rw [last_step h2 b]
  cases (s.simulate st.1.1 a).2 <;> exact ⟨rfl, rfl⟩

theorem last_run (as : List (List ℝ)) (st : (σ × DeadSt (List ℝ)) × List ℝ) (r : Except Err (List ℝ)) (a x : List ℝ) (hr : r = .ok (x ++ a))
    (h2 : st.1.2.deque = [a]) (hok : ∀ r ∈ (runs (lastAction n (deadTime 1 ra s)) st as).2, ∃ v, r = .ok v) :
    ∃ x', (r :: (runs (lastAction n (deadTime 1 ra s)) st as).2).getLast? = some (.ok (x' ++ as.getLastD a)) ∧
      (runs (lastAction n (deadTime 1 ra s)) st as).1.1.2.deque = [as.getLastD a] := by
  induction as generalizing st r a x with
  | nil => exact ⟨x, by simp [runs, hr], by simpa [runs] using h2⟩
  | cons b as ih =>
    have hs := last_step (n := n) (s := s) (ra := ra) h2 b
    cases hq : (s.simulate st.1.1 a).2 with
    | error e =>
      simp only [hq] at hs
      obtain ⟨v, hv⟩ := hok _ (by simp only [runs, hs]; exact List.mem_cons_self ..)
      cases hv
    | ok v =>
      simp only [hq] at hs
      simp only [runs, hs] at hok ⊢
      obtain ⟨x', e1, e2⟩ := ih (((s.simulate st.1.1 a).1, ⟨[b], st.1.2.resets⟩), b) (.ok (v ++ b)) b v rfl rfl
        fun r hr => hok r (List.mem_cons_of_mem _ hr)
      have hl : (b :: as).getLastD a = as.getLastD b := by
        cases as with
        | nil => rfl
        | cons h t => rfl
      rw [hl]
      refine ⟨x', ?_, e2⟩
      rw [List.getLast?_cons_cons, e1]

end last

/-- C144: with a dead time of one step (and its default reset action), the last entries of every observation of the DDPG notebook are the action that
the inner system carries out in the next step, whatever the agent chooses then; the agent's choice is appended to the next observation. -/
theorem c144_last_action (n : ℕ) (s : PSys σ (List ℝ)) (st0 : (σ × DeadSt (List ℝ)) × List ℝ) (v0 : List ℝ) (hr : (s.reset st0.1.1).2 = .ok v0)
    (as : List (List ℝ)) :
    let W := lastAction n (deadTime 1 (fun _ => [List.replicate n 0]) s)
    let outs := (W.reset st0).2 :: (runs W (W.reset st0).1 as).2
    let st := (runs W (W.reset st0).1 as).1
    (∀ r ∈ outs, ∃ v, r = .ok v) →
    ∃ x a, outs.getLast? = some (.ok (x ++ a)) ∧ a = as.getLastD (List.replicate n 0) ∧ ∀ b, (W.simulate st b).1.1.1 = (s.simulate st.1.1 a).1 ∧
      (W.simulate st b).2 = (s.simulate st.1.1 a).2.map (· ++ b) := by
  intro W outs st hok
  have h0 : W.reset st0 = ((((s.reset st0.1.1).1, ⟨[List.replicate n 0], st0.1.2.resets + 1⟩), List.replicate n 0), .ok (v0 ++ List.replicate n 0)) := by
    simp only [W, lastAction, deadTime, hr]
    rfl
  obtain ⟨x, h1, h2⟩ := last_run (n := n) (s := s) (ra := fun _ => [List.replicate n 0]) as (W.reset st0).1 (W.reset st0).2 (List.replicate n 0) v0
    (by rw [h0]) (by rw [h0]) fun r hr => hok r (List.mem_cons_of_mem _ hr)
  refine ⟨x, _, h1, rfl, fun b => ?_⟩
  exact last_step' h2 b

/-- A system that keeps and shows the action of the last step. -/
def keepsAction : PSys (List ℝ) (List ℝ) where
  reset _ := ([], .ok [0])
  simulate _ a := (a, .ok a)
  names := ["x"]
  pos _ := some 0
  limits := [1]
  nominal := [1]
  low := [-1]
  high := [1]
  tau := 1

/-- The second observation shows the effect of the reset action and ends with the action 5 of the first step, which is carried out in the second step. -/
example : let W := lastAction 1 (deadTime 1 (fun _ => [List.replicate 1 0]) keepsAction)
    let st := (W.reset (([], ⟨[], 0⟩), [])).1
    (W.simulate st [5]).2.toOption = some [0, 5] ∧ (W.simulate (W.simulate st [5]).1 [7]).2.toOption = some [5, 7] := by
  exact ⟨rfl, rfl⟩

/-! ## C144: the reward logger -/

/-- what the logger makes of an event: a new episode (`none`) or a reward -/
def note {B S R : Type} : CbEvent B S R ℝ → Option (Option ℝ)
  | .resetBegin => some none
  | .stepEnd _ _ _ w _ => some (some w)
  | _ => none

section logger

variable {B S R O : Type}

/-- the events of the callback with index `i` -/
def toldTo (i : ℕ) (l : List (LogEntry B S R O ℝ)) : List (CbEvent B S R ℝ) := ((cbEntries l).filter (·.1 = i)).map (·.2)

/-- what the caller knows: a call of `reset`, or the reward that `step` returned -/
def witnessed : Op σ B × Core.Out S O ℝ → Option (Option ℝ)
  | (.reset _, _) => some none
  | (.step _, .step (.done r)) => some (some r.reward)
  | _ => none

theorem toldTo_append (i : ℕ) (l l' : List (LogEntry B S R O ℝ)) : toldTo i (l ++ l') = toldTo i l ++ toldTo i l' := by
  simp [toldTo, cbEntries_append]

theorem toldTo_fire {i n : ℕ} (hi : i < n) (e : CbEvent B S R ℝ) :
    toldTo i ((List.range n).map (fun j => (LogEntry.cb j e : LogEntry B S R O ℝ))) = [e] := by
  have h1 : ∀ n, ((List.range n).filter (fun j => decide (j = i))) = if i < n then [i] else [] := by
    intro n
    induction n with
    | zero => rfl
    | succ n ih =>
      rw [List.range_succ, List.filter_append, ih]
      by_cases h : i < n
      · simp [h, show ¬ n = i by omega, show i < n + 1 by omega]
      · by_cases h' : n = i
        · subst h'; simp
        · simp [h, h', show ¬ i < n + 1 by omega]
  simp only [toldTo, cbEntries_map, List.filter_map, List.map_map, Function.comp_def]
  rw [h1, if_pos hi]
  rfl

def notes (i : ℕ) (l : List (LogEntry B S R O ℝ)) : List (Option ℝ) := (toldTo i l).filterMap note

theorem notes_append (i : ℕ) (l l' : List (LogEntry B S R O ℝ)) : notes i (l ++ l') = notes i l ++ notes i l' := by
  simp [notes, toldTo_append]

theorem notes_fire {i n : ℕ} (hi : i < n) (e : CbEvent B S R ℝ) :
    notes i ((List.range n).map (fun j => (LogEntry.cb j e : LogEntry B S R O ℝ))) = (note e).toList := by
  rw [notes, toldTo_fire hi]
  cases h : note e <;> simp [h]

theorem apply_notes (C : Comps σ B S R O ℝ) (env : Env σ B S R O ℝ) (op : Op σ B) {i : ℕ} (hi : i < C.nCb) :
    notes i (apply C env op).1.log = notes i env.log ++ (witnessed (op, (apply C env op).2)).toList := by
  have one : ∀ x : LogEntry B S R O ℝ, (∀ i e, x ≠ .cb i e) → notes i [x] = [] := by
    intro x hx
    cases x with
    | cb i e => exact absurd rfl (hx i e)
    | _ => rfl
  cases op with
  | setRef f => simp [apply, witnessed]
  | setReward f => simp [apply, witnessed]
  | close =>
    simp only [apply, Env.fire, witnessed]
    rw [notes_append, notes_fire hi]; rfl
  | step a =>
    simp only [apply, Env.step]
    split
    · simp [witnessed]
    · simp only [Env.stepBody, Env.call, Call.bind]
      split
      · split
        · split
          · split
            · split
              · simp only [Env.fire, witnessed]
                simp only [notes_append, notes_fire hi]
                rw [one _ (by simp), one _ (by simp), one _ (by simp), one _ (by simp), one _ (by simp)]
                simp [note]
              · simp only [Env.fire, witnessed]
                simp only [notes_append, notes_fire hi]
                rw [one _ (by simp), one _ (by simp), one _ (by simp), one _ (by simp), one _ (by simp)]
                simp [note]
            · simp only [Env.fire, witnessed]
              simp only [notes_append, notes_fire hi]
              rw [one _ (by simp), one _ (by simp), one _ (by simp), one _ (by simp)]
              simp [note]
          · simp only [Env.fire, witnessed]
            simp only [notes_append, notes_fire hi]
            rw [one _ (by simp), one _ (by simp), one _ (by simp)]
            simp [note]
        · simp only [Env.fire, witnessed]
          simp only [notes_append, notes_fire hi]
          rw [one _ (by simp), one _ (by simp)]
          simp [note]
      · simp only [Env.fire, witnessed]
        simp only [notes_append, notes_fire hi]
        rw [one _ (by simp)]
        simp [note]
  | reset n =>
    simp only [apply, Env.reset, Env.call, Call.bind]
    split
    · split
      · simp only [Env.fire, witnessed]
        simp only [notes_append, notes_fire hi]
        rw [one _ (by simp), one _ (by simp), one _ (by simp), one _ (by simp)]
        simp [note]
      · simp only [Env.fire, witnessed]
        simp only [notes_append, notes_fire hi]
        rw [one _ (by simp), one _ (by simp), one _ (by simp)]
        simp [note]
    · simp only [Env.fire, witnessed]
      simp only [notes_append, notes_fire hi]
      rw [one _ (by simp), one _ (by simp)]
      simp [note]

theorem run_notes (C : Comps σ B S R O ℝ) (c : σ) (ops : List (Op σ B)) {i : ℕ} (hi : i < C.nCb) :
    notes i (run C (Env.init C c) ops).1.log = (run C (Env.init C c) ops).2.filterMap witnessed := by
  have key : ∀ env : Env σ B S R O ℝ, notes i (run C env ops).1.log = notes i env.log ++ (run C env ops).2.filterMap witnessed := by
    induction ops with
    | nil => intro env; simp [run]
    | cons op ops ih =>
      intro env
      simp only [run]
      rw [ih, apply_notes C env op hi, List.append_assoc, List.filterMap_cons]
      cases witnessed (op, (apply C env op).2) <;> simp
  rw [key]
  have : notes i (Env.init C c).log = [] := by
    simp only [Env.init, Env.fire, List.nil_append]
    rw [notes_fire hi]; rfl
  rw [this, List.nil_append]

/-- the logger reads nothing but its notes -/
def Logger.hear (careful : Bool) (l : Logger) : Option ℝ → Logger
  | some w => { l with rewards := l.rewards ++ [w] }
  | none => ⟨[], if careful ∧ l.rewards = [] then l.means else l.means ++ [mean l.rewards]⟩

theorem logger_notes (careful : Bool) (es : List (CbEvent B S R ℝ)) (l : Logger) :
    es.foldl (Logger.on careful) l = (es.filterMap note).foldl (Logger.hear careful) l := by
  induction es generalizing l with
  | nil => rfl
  | cons e es ih => cases e <;> simp [note, Logger.on, Logger.hear, ih, List.filterMap_cons]

/-- The rewards that the caller was given between two calls of `reset` (before the first, …, after the last). -/
def episodesOf : List (Op σ B × Core.Out S O ℝ) → List (List ℝ)
  | [] => [[]]
  | h :: t => match witnessed h with
    | some none => [] :: episodesOf t
    | some (some w) => (episodesOf t).modifyHead (w :: ·)
    | none => episodesOf t

theorem episodesOf_ne (hist : List (Op σ B × Core.Out S O ℝ)) : episodesOf hist ≠ [] := by
  induction hist with
  | nil => simp [episodesOf]
  | cons h t ih =>
    simp only [episodesOf]
    split
    · simp
    · cases he : episodesOf t with
      | nil => exact absurd he ih
      | cons a l => simp
    · exact ih

theorem hear_all (careful : Bool) (hist : List (Op σ B × Core.Out S O ℝ)) (l : Logger) :
    (hist.filterMap witnessed).foldl (Logger.hear careful) l =
      ⟨((episodesOf hist).modifyHead (l.rewards ++ ·)).getLastD [],
        l.means ++ (((episodesOf hist).modifyHead (l.rewards ++ ·)).dropLast.filter (fun e => ¬ (careful ∧ e = []))).map mean⟩ := by
  induction hist generalizing l with
  | nil => simp [episodesOf]
  | cons h t ih =>
    obtain ⟨a, E, hE⟩ := List.exists_cons_of_ne_nil (episodesOf_ne t)
    simp only [List.filterMap_cons, episodesOf]
    cases hw : witnessed h with
    | none => simpa using ih l
    | some o =>
      cases o with
      | some w => simp [ih, Logger.hear, hE]
      | none =>
        simp only [List.foldl_cons, ih, Logger.hear, hE, List.modifyHead_cons, List.nil_append, List.append_nil]
        congr 1
        by_cases hc : careful ∧ l.rewards = []
        · simp [hc]
        · rw [if_neg hc, List.dropLast_cons_of_ne_nil (l := a :: E) (by simp) (x := l.rewards), List.append_assoc,
            List.filter_cons_of_pos (a := l.rewards) (by simp only [decide_eq_true_eq]; exact hc)]
          rfl

/-- C144: the logger of the DQN notebook, registered as any callback of any environment, holds after any history the mean of the rewards that the caller
was given in every episode with at least one step, in order, and the rewards since the last `reset`. -/
theorem c144_logger (C : Comps σ B S R O ℝ) (c : σ) (ops : List (Op σ B)) (i : ℕ) (hi : i < C.nCb) :
    let r := run C (Env.init C c) ops
    let l := (toldTo i r.1.log).foldl (Logger.on true) Logger.new
    l.means = ((episodesOf r.2).dropLast.filter (· ≠ [])).map (fun e => some (e.sum / (e.length : ℝ))) ∧ l.rewards = (episodesOf r.2).getLastD [] := by
  intro r l
  have h : l = _ := (logger_notes true (toldTo i r.1.log) Logger.new).trans
    ((congrArg (List.foldl (Logger.hear true) Logger.new) (run_notes C c ops hi)).trans (hear_all true r.2 Logger.new))
  rw [h]
  obtain ⟨a, E, hE⟩ := List.exists_cons_of_ne_nil (episodesOf_ne r.2)
  simp only [hE, Logger.new, List.modifyHead_cons, List.nil_append, true_and, and_true]
  have hf : ∀ L : List (List ℝ), (L.filter (fun e => decide ¬ (e = []))).map mean =
      (L.filter (fun e => decide (e ≠ []))).map (fun e => some (e.sum / (e.length : ℝ))) := by
    intro L
    refine List.map_congr_left fun e he => ?_
    have : e ≠ [] := by simpa using (List.mem_filter.1 he).2
    simp [mean, this]
  exact hf _

/-- C144, a defect: the logger of the cookbook has `nan` as its first mean in every history that begins, as it must, with `reset`. -/
theorem c144_logger_violated (C : Comps σ B S R O ℝ) (c : σ) (entropy : ℕ) (ops : List (Op σ B)) (i : ℕ) (hi : i < C.nCb) :
    let l := (toldTo i (run C (Env.init C c) (.reset entropy :: ops)).1.log).foldl (Logger.on false) Logger.new
    l.means.head? = some none := by
  intro l
  have h : l = _ := (logger_notes false _ Logger.new).trans
    ((congrArg (List.foldl (Logger.hear false) Logger.new) (run_notes C c (.reset entropy :: ops) hi)).trans (hear_all false _ Logger.new))
  rw [h]
  simp only [run, episodesOf, witnessed]
  obtain ⟨a, E, hE⟩ := List.exists_cons_of_ne_nil (episodesOf_ne (run C (apply C (Env.init C c) (.reset entropy)).1 ops).2)
  simp [hE, Logger.new, mean]

end logger

/-- An environment that gives the action as a reward, with one callback. -/
def echoComps : Comps Unit ℝ Unit Unit Unit ℝ where
  seed _ c := c
  psReset c := (c, .ok ())
  refReset c _ := (c, .ok ((), ()))
  rewReset c _ _ := c
  psK _ := 0
  simulate c _ := (c, .ok ())
  getRef c _ := (c, .ok ())
  check c _ := (c, .ok 0)
  reward c _ _ _ a _ := (c, .ok a)
  refObs c _ := (c, .ok ())
  observe s := s
  nCb := 1
  onCb _ _ c := c

/-- Two episodes, the second without a step, and the beginning of a third. -/
example : ((toldTo 0 (run echoComps (Env.init echoComps ()) [.reset 0, .step 1, .step 2, .reset 0, .reset 0, .step 5]).1.log).foldl (Logger.on true)
    Logger.new).means = [some (3 / 2)] := by
  rw [(c144_logger echoComps () _ 0 (by decide)).1]
  simp [run, apply, echoComps, Env.step, Env.stepBody, Env.reset, Env.call, Call.bind, Env.init, Env.fire, episodesOf, witnessed]
  norm_num
  exact ⟨[1, 2], by simp, by norm_num⟩

/-! ## C145: the grid -/

/-- C145: the voltages of the example are a symmetrical three-phase system: they sum up to zero, stay within the amplitude, have the given frequency, the
phases follow each other by a third of the period, and their space vector has the length of the amplitude and turns with the grid's frequency. -/
theorem c145_grid (A f ph t : ℝ) :
    let u := fun t k => (gridVoltage A f ph t).getD k 0
    (gridVoltage A f ph t).length = 3 ∧ (gridVoltage A f ph t).sum = 0 ∧ (∀ k, |u t k| ≤ |A|) ∧
    (f ≠ 0 → gridVoltage A f ph (t + 1 / f) = gridVoltage A f ph t ∧ u t 1 = u (t - 1 / f / 3) 0 ∧ u t 2 = u (t + 1 / f / 3) 0) ∧
    Motor.t23 (fun k => u t k) = ![A * Real.cos (2 * Real.pi * f * t + ph / 180 * Real.pi - Real.pi / 2),
      A * Real.sin (2 * Real.pi * f * t + ph / 180 * Real.pi - Real.pi / 2)] := by
  intro u
  have hs : Real.sin (2 * Real.pi / 3) = √3 / 2 := by
    rw [show 2 * Real.pi / 3 = Real.pi - Real.pi / 3 by ring, Real.sin_pi_sub, Real.sin_pi_div_three]
  have hc : Real.cos (2 * Real.pi / 3) = -1 / 2 := by
    rw [show 2 * Real.pi / 3 = Real.pi - Real.pi / 3 by ring, Real.cos_pi_sub, Real.cos_pi_div_three]
    norm_num
  have h3 : (√3 : ℝ) ^ 2 = 3 := Real.sq_sqrt (by norm_num)
  have hle : ∀ x, |A * Real.sin x| ≤ |A| := fun x => by
    rw [abs_mul]
    exact mul_le_of_le_one_right (abs_nonneg _) (Real.abs_sin_le_one x)
  refine ⟨rfl, ?_, ?_, ?_, ?_⟩
  · simp only [gridVoltage, List.sum_cons, List.sum_nil, Real.sin_sub, Real.sin_add (_ + _), hs, hc]
    ring
  · intro k
    rcases k with _ | _ | _ | k
    · exact hle _
    · exact hle _
    · exact hle _
    · simp [u, gridVoltage]
  · intro hf
    have e1 : f * 2 * Real.pi * (t + 1 / f) = f * 2 * Real.pi * t + 2 * Real.pi := by field_simp
    have e2 : f * 2 * Real.pi * (t - 1 / f / 3) = f * 2 * Real.pi * t - 2 * Real.pi / 3 := by field_simp
    have e3 : f * 2 * Real.pi * (t + 1 / f / 3) = f * 2 * Real.pi * t + 2 * Real.pi / 3 := by field_simp
    refine ⟨?_, ?_, ?_⟩
    · simp only [gridVoltage, e1]
      rw [← Real.sin_add_two_pi (f * 2 * Real.pi * t + ph * 2 * Real.pi / 360), ← Real.sin_add_two_pi (f * 2 * Real.pi * t + ph * 2 * Real.pi / 360 - _),
        ← Real.sin_add_two_pi (f * 2 * Real.pi * t + ph * 2 * Real.pi / 360 + 2 * Real.pi / 3)]
      ring_nf
    · change A * Real.sin _ = A * Real.sin _
      rw [e2]; ring_nf
    · change A * Real.sin _ = A * Real.sin _
      rw [e3]; ring_nf
  · rw [Real.cos_sub_pi_div_two, Real.sin_sub_pi_div_two, show 2 * Real.pi * f * t + ph / 180 * Real.pi = f * 2 * Real.pi * t + ph * 2 * Real.pi / 360 by ring]
    funext k
    fin_cases k
    · simp [Motor.t23, u, gridVoltage, Matrix.mulVec, dotProduct, Fin.sum_univ_three, Real.sin_sub, Real.sin_add (_ + _), hs, hc]
      ring
    · simp [Motor.t23, u, gridVoltage, Matrix.mulVec, dotProduct, Fin.sum_univ_three, Real.sin_sub, Real.sin_add (_ + _), hs, hc]
      linear_combination (-(A * Real.cos (f * 2 * Real.pi * t + ph * 2 * Real.pi / 360)) / 3) * h3

/-- The phases of a grid of 50 Hz and amplitude 1 at time 0: 0, −√3/2 and √3/2. -/
example : gridVoltage 1 50 0 0 = [0, -(√3 / 2), √3 / 2] := by
  have hs : Real.sin (2 * Real.pi / 3) = √3 / 2 := by
    rw [show 2 * Real.pi / 3 = Real.pi - Real.pi / 3 by ring, Real.sin_pi_sub, Real.sin_pi_div_three]
  simp [gridVoltage, hs]

/-- C145, a defect: the amplitude is said to be a fraction of the DC link's voltage, but what the three-phase bridge makes of it (the factor by which the
voltage of the DC link is multiplied) is half of it. -/
theorem c145_fraction_violated (tau A f ph t : ℝ) (hA : |A| ≤ 1) :
    SetOnce contPower (.b6 (Conv.CB6.new tau 0)) tau (·.length = 3) b6Duty (fun _ => -1 / 2) ∧
    ∀ k : Fin 3, b6Duty (gridVoltage A f ph t) k = (gridVoltage A f ph t).getD k 0 / 2 := by
  refine ⟨(c138_converters tau).2.2.2.2.2.1, fun k => ?_⟩
  have h := abs_le.1 (((c145_grid A f ph t).2.2.1 k).trans hA)
  unfold b6Duty clip
  rw [max_eq_left h.1, min_eq_left h.2]

/-- C145, a defect: from the first step on, the time that is recorded (and plotted) beside a state is one sampling time less than the time at which the
system was in that state: the first two times are both 0, and the last is missing. -/
theorem c145_time_violated {σ : Type} (reset : σ → σ × List ℝ) (step : σ → List ℝ → σ × List ℝ) (scale : List ℝ → List ℝ) (tau : ℝ) (u : ℝ → List ℝ) (n : ℕ) (st : σ)
    (clock : σ → ℝ) (h0 : clock (reset st).1 = 0) (h1 : ∀ s a, clock (step s a).1 = clock s + tau) :
    (gridRecord reset step scale tau u n st).length = n + 1 ∧
    ∀ (k : ℕ) r, (gridRecord reset step scale tau u n st)[k]? = some r → clock r.2.2 = k * tau ∧ r.1 = ((k - 1 : ℕ) : ℝ) * tau := by
  have key : ∀ (n idx : ℕ) (s : σ), clock s = idx * tau → (gridLoop step scale tau u idx n s).length = n ∧
      ∀ (k : ℕ) r, (gridLoop step scale tau u idx n s)[k]? = some r → clock r.2.2 = ((idx + k + 1 : ℕ) : ℝ) * tau ∧ r.1 = ((idx + k : ℕ) : ℝ) * tau := by
    intro n
    induction n with
    | zero => intro idx s hs; simp [gridLoop]
    | succ n ih =>
      intro idx s hs
      have hn : clock (step s (u (idx * tau))).1 = ((idx + 1 : ℕ) : ℝ) * tau := by rw [h1, hs]; push_cast; ring
      obtain ⟨i1, i2⟩ := ih (idx + 1) _ hn
      refine ⟨by simp [gridLoop, i1], fun k r hk => ?_⟩
      cases k with
      | zero =>
        simp only [gridLoop, List.getElem?_cons_zero, Option.some.injEq] at hk
        subst hk
        exact ⟨hn, rfl⟩
      | succ k =>
        simp only [gridLoop, List.getElem?_cons_succ] at hk
        have := i2 k r hk
        rw [show idx + (k + 1) = idx + 1 + k by omega]
        exact this
  obtain ⟨k1, k2⟩ := key n 0 (reset st).1 (by simpa using h0)
  refine ⟨by simp [gridRecord, k1], fun k r hk => ?_⟩
  cases k with
  | zero =>
    simp only [gridRecord, List.getElem?_cons_zero, Option.some.injEq] at hk
    subst hk
    exact ⟨by simpa using h0, by simp⟩
  | succ k =>
    simp only [gridRecord, List.getElem?_cons_succ] at hk
    have := k2 k r hk
    simpa using this

/-- A system that is its own clock, three steps of 2. -/
example : (gridRecord (σ := ℝ) (fun _ => (0, [])) (fun s _ => (s + 2, [])) id 2 (gridVoltage 1 50 0) 3 7).map (fun r => (r.1, r.2.2)) =
    [(0, 0), (0, 2), (2, 4), (4, 6)] := by
  simp [gridRecord, gridLoop]
  norm_num

end

end GEM.Props
