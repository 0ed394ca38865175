import Verif.Spec.Wrappers
import Mathlib.Tactic.Ring
import Mathlib.Tactic.Linarith
import Mathlib.Tactic.FieldSimp
import Mathlib.Tactic.NormNum
import Mathlib.Data.List.Nodup

/-!
# Proofs about the physical system wrappers
-/

set_option linter.unusedSectionVars false

namespace GEM.Wrap

open Real GEM.Motor

variable {σ A : Type}

/-! ## Dead time -/

theorem deadTime_runs (n : ℕ) (ra : ℕ → List A) (s : PSys σ A) (as : List A) (st : σ) (d : List A) (k : ℕ)
    (h0 : d ≠ []) (hn : d.length ≤ n) :
    runs (deadTime n ra s) (st, ⟨d, k⟩) as =
      (((runs s st ((d.reverse ++ as).take as.length)).1, ⟨(as.reverse ++ d).take d.length, k⟩),
        (runs s st ((d.reverse ++ as).take as.length)).2) := by
  induction as generalizing st d with
  | nil => simp [runs]
  | cons a as ih =>
    obtain ⟨d', x, rfl⟩ : ∃ d' x, d = d' ++ [x] := ⟨d.dropLast, d.getLast h0, (List.dropLast_append_getLast h0).symm⟩
    have hl : d'.length + 1 ≤ n := by simpa using hn
    have e1 : (deadTime n ra s).simulate (st, ⟨d' ++ [x], k⟩) a =
        (((s.simulate st x).1, ⟨a :: d', k⟩), (s.simulate st x).2) := by
      simp [deadTime, appendLeft, List.take_of_length_le, hl]
    have e2 : ((d' ++ [x]).reverse ++ a :: as).take (a :: as).length =
        x :: (((a :: d').reverse ++ as).take as.length) := by simp
    rw [runs, e1, e2, runs, ih _ (a :: d') (by simp) (by simpa using hl)]
    have e3 : (as.reverse ++ a :: d').take (a :: d').length = ((a :: as).reverse ++ (d' ++ [x])).take (d' ++ [x]).length := by
      have : (a :: as).reverse ++ (d' ++ [x]) = (as.reverse ++ a :: d') ++ [x] := by simp
      have h2 : (d' ++ [x]).length ≤ (as.reverse ++ a :: d').length := by simp
      rw [this, List.take_append_of_le_length h2]
      simp
    rw [e3]

theorem deadTime_empty (n : ℕ) (ra : ℕ → List A) (s : PSys σ A) (as : List A) (st : σ) (k : ℕ) :
    runs (deadTime n ra s) (st, ⟨[], k⟩) as = ((st, ⟨[], k⟩), as.map fun _ => .error .index) := by
  induction as with
  | nil => rfl
  | cons a as ih =>
    have e1 : (deadTime n ra s).simulate (st, ⟨[], k⟩) a = ((st, ⟨[], k⟩), .error .index) := by simp [deadTime]
    rw [runs, e1, ih]; rfl

theorem extend_nil (n : ℕ) (l : List A) : extend n [] l = l.drop (l.length - n) := by simp [extend]

theorem extend_length (n : ℕ) (l : List A) : (extend n [] l).length ≤ n := by
  rw [extend_nil, List.length_drop]; omega

theorem deadTime_reset (n : ℕ) (ra : ℕ → List A) (s : PSys σ A) (st : σ × DeadSt A) (v : List ℝ)
    (h : (s.reset st.1).2 = .ok v) :
    (deadTime n ra s).reset st =
      (((s.reset st.1).1, ⟨extend n [] (ra st.2.resets), st.2.resets + 1⟩), .ok v) := by
  simp only [deadTime, h]

theorem deadTime_after_reset (n : ℕ) (ra : ℕ → List A) (s : PSys σ A) (st : σ × DeadSt A) (v : List ℝ)
    (h : (s.reset st.1).2 = .ok v) (h0 : ra st.2.resets ≠ []) (hn : 0 < n) (as : List A) :
    (runs (deadTime n ra s) ((deadTime n ra s).reset st).1 as).2 =
      (runs s (s.reset st.1).1
        ((((ra st.2.resets).drop ((ra st.2.resets).length - n)).reverse ++ as).take as.length)).2 ∧
    (runs (deadTime n ra s) ((deadTime n ra s).reset st).1 as).1.1 =
      (runs s (s.reset st.1).1
        ((((ra st.2.resets).drop ((ra st.2.resets).length - n)).reverse ++ as).take as.length)).1 := by
  rw [deadTime_reset n ra s st v h]
  have hne : extend n [] (ra st.2.resets) ≠ [] := by
    rw [extend_nil]
    intro hc
    have := congrArg List.length hc
    rw [List.length_drop] at this
    have := List.length_pos_iff.2 h0
    simp at *
    omega
  rw [deadTime_runs n ra s as _ _ _ hne (extend_length n _), extend_nil]
  exact ⟨rfl, rfl⟩

/-! ## Lookup -/

theorem enumPos_some {names : List String} {k : String} {i : ℕ} (h : enumPos names k = some i) :
    names[i]? = some k := by
  unfold enumPos at h
  split at h
  · rename_i hm
    have hm' : k ∈ names.reverse := List.mem_reverse.2 hm
    have hlt : names.reverse.idxOf k < names.length := by
      have := List.idxOf_lt_length_of_mem hm'; simpa using this
    have hi : i = names.length - 1 - names.reverse.idxOf k := by simpa using h.symm
    subst hi
    have := List.getElem?_reverse (l := names) (i := names.reverse.idxOf k) hlt
    rw [← this]
    rw [List.getElem?_eq_getElem (by simpa using hlt)]
    simp
  · exact absurd h (by simp)

theorem enumPos_mem {names : List String} {k : String} (h : k ∈ names) : ∃ i, enumPos names k = some i :=
  ⟨_, by simp [enumPos, h]; rfl⟩

theorem enumPos_none {names : List String} {k : String} (h : k ∉ names) : enumPos names k = none := by
  simp [enumPos, h]

theorem position_ok {pos : String → Option ℕ} {k : String} {i : ℕ} : position pos k = .ok i ↔ pos k = some i := by
  unfold position; cases pos k <;> simp

theorem getE_ok {l : List ℝ} {i : ℕ} {x : ℝ} : getE l i = .ok x ↔ l[i]? = some x := by
  unfold getE; cases l[i]? <;> simp

theorem mapM_ok {α β : Type} {f : α → Except Err β} {l : List α} {r : List β} :
    l.mapM f = .ok r ↔ List.Forall₂ (fun a b => f a = .ok b) l r := by
  induction l generalizing r with
  | nil => cases r <;> simp [pure, Except.pure]
  | cons a l ih =>
    rw [List.mapM_cons]
    constructor
    · intro h
      cases ha : f a with
      | error e => rw [ha] at h; cases h
      | ok b =>
        rw [ha] at h
        cases hl : l.mapM f with
        | error e => rw [hl] at h; cases h
        | ok bs =>
          rw [hl] at h
          cases h
          exact .cons ha (ih.1 hl)
    · intro h
      cases h with
      | cons ha hl => rw [ha, ih.2 hl]; rfl

theorem bind_ok {α β : Type} {m : Except Err α} {f : α → Except Err β} {b : β} :
    (m >>= f) = .ok b ↔ ∃ a, m = .ok a ∧ f a = .ok b := by
  cases m with
  | error e => constructor
               · intro h; cases h
               · rintro ⟨a, h, _⟩; cases h
  | ok a => constructor
            · intro h; exact ⟨a, rfl, h⟩
            · rintro ⟨a', h, h'⟩; cases h; exact h'

theorem bind_ok' {α β : Type} {m : Except Err α} {f : α → Except Err β} {b : β} :
    m.bind f = .ok b ↔ ∃ a, m = .ok a ∧ f a = .ok b := bind_ok

theorem map_ok' {α β : Type} {m : Except Err α} {f : α → β} {b : β} :
    m.map f = .ok b ↔ ∃ a, m = .ok a ∧ f a = b := by
  cases m <;> simp [Except.map]

theorem Consistent.lt {s : PSys σ A} (c : Consistent s) {k : String} {i : ℕ} (h : s.pos k = some i) : i < s.names.length := by
  have := c.pos k i h
  exact (List.getElem?_eq_some_iff.1 this).1

/-! ## Announcements and vectors -/

theorem deadTime_consistent (n : ℕ) (ra : ℕ → List A) {s : PSys σ A} (c : Consistent s) : Consistent (deadTime n ra s) where
  limits := c.limits
  nominal := c.nominal
  low := c.low
  high := c.high
  pos _ _ h := enumPos_some h
  named _ h := enumPos_mem h
  reset st v h := by
    cases hr : (s.reset st.1).2 with
    | error e => simp [deadTime, hr] at h
    | ok v' =>
      rw [deadTime_reset n ra s st v' hr] at h
      cases h
      exact c.reset _ _ hr
  simulate st a v h := by
    simp only [deadTime] at h
    split at h
    · cases h
    · exact c.simulate _ _ _ h

theorem post_ok {r : Call σ (List ℝ)} {g : List ℝ → Except Err (List ℝ)} {w : List ℝ} :
    (post r g).2 = .ok w ↔ ∃ v, r.2 = .ok v ∧ g v = .ok w := bind_ok'

theorem cosSinOf_ok {idx : ℕ} {v w : List ℝ} :
    cosSinOf idx v = .ok w ↔ ∃ x, v[idx]? = some x ∧ w = v ++ [cos (x * π), sin (x * π)] := by
  unfold cosSinOf
  rw [map_ok']
  constructor
  · rintro ⟨x, h, rfl⟩; exact ⟨x, getE_ok.1 h, rfl⟩
  · rintro ⟨x, h, rfl⟩; exact ⟨x, getE_ok.2 h, rfl⟩

theorem del_length {α : Type} {remove : Bool} {idx : ℕ} {l : List α} (h : idx < l.length) :
    (del remove idx l).length = l.length - remove.toNat := by
  unfold del; cases remove <;> simp [List.length_eraseIdx, h]

theorem cosSinAt_simulate_length {idx : ℕ} {angle : String} {remove : Bool} {s : PSys σ A} (c : Consistent s)
    (hi : idx < s.names.length) (st : σ) (a : A) (v : List ℝ)
    (h : ((cosSinAt idx angle remove s).simulate st a).2 = .ok v) :
    v.length = (cosSinAt idx angle remove s).names.length := by
  obtain ⟨u, hu, h⟩ := post_ok.1 h
  obtain ⟨w, hw, rfl⟩ := map_ok'.1 h
  obtain ⟨x, hx, rfl⟩ := cosSinOf_ok.1 hw
  have hl := c.simulate _ _ _ hu
  rw [del_length (by simp; omega)]
  simp only [cosSinAt, List.length_append, del_length hi, List.length_cons, List.length_nil]
  cases remove <;> simp <;> omega

theorem cosSinAt_reset_length {idx : ℕ} {angle : String} {remove : Bool} {s : PSys σ A} (c : Consistent s)
    (hi : idx < s.names.length) (st : σ) (v : List ℝ)
    (h : ((cosSinAt idx angle remove s).reset st).2 = .ok v) :
    v.length = (cosSinAt idx angle remove s).names.length + remove.toNat := by
  obtain ⟨u, hu, h⟩ := post_ok.1 h
  obtain ⟨x, hx, rfl⟩ := cosSinOf_ok.1 h
  have hl := c.reset _ _ hu
  simp only [cosSinAt, List.length_append, del_length hi, List.length_cons, List.length_nil]
  cases remove <;> simp <;> omega

theorem cosSinAt_consistent {idx : ℕ} {angle : String} {s : PSys σ A} (c : Consistent s) (hi : idx < s.names.length) :
    Consistent (cosSinAt idx angle false s) where
  limits := by simp [cosSinAt, del, c.limits]
  nominal := by simp [cosSinAt, del, c.nominal]
  low := by simp [cosSinAt, del, c.low]
  high := by simp [cosSinAt, del, c.high]
  pos _ _ h := enumPos_some h
  named _ h := enumPos_mem h
  reset st v h := by simpa using cosSinAt_reset_length c hi st v h
  simulate st a v h := cosSinAt_simulate_length c hi st a v h

theorem withSum_ok {idx : List ℕ} {v w : List ℝ} :
    withSum idx v = .ok w ↔ ∃ cs, List.Forall₂ (fun i x => v[i]? = some x) idx cs ∧ w = v ++ [cs.sum] := by
  unfold withSum
  rw [map_ok']
  constructor
  · rintro ⟨cs, h, rfl⟩
    refine ⟨cs, ?_, rfl⟩
    exact (mapM_ok.1 h).imp (fun a b h => getE_ok.1 h)
  · rintro ⟨cs, h, rfl⟩
    exact ⟨cs, mapM_ok.2 (h.imp (fun a b h => getE_ok.2 h)), rfl⟩

theorem currentSumAt_consistent {idx : List ℕ} {limit nominal : ℝ} {s : PSys σ A} (c : Consistent s) :
    Consistent (currentSumAt idx limit nominal s) where
  limits := by simp [currentSumAt, c.limits]
  nominal := by simp [currentSumAt, c.nominal]
  low := by simp [currentSumAt, c.low]
  high := by simp [currentSumAt, c.high]
  pos k i h := by
    simp only [currentSumAt] at h ⊢
    split at h
    · rename_i hk
      subst hk
      have hm : "i_sum" ∈ s.names ++ ["i_sum"] := by simp
      have := List.idxOf_lt_length_of_mem hm
      have hi : i = (s.names ++ ["i_sum"]).idxOf "i_sum" := by simpa using h.symm
      rw [hi, List.getElem?_eq_getElem this, List.getElem_idxOf]
    · have := c.pos k i h
      rw [List.getElem?_append_left (c.lt h)]
      exact this
  named k h := by
    simp only [currentSumAt] at h ⊢
    by_cases hk : k = "i_sum"
    · simp [hk]
    · simp only [hk, if_false]
      refine c.named k ?_
      simpa [hk] using h
  reset st v h := by
    obtain ⟨u, hu, h⟩ := post_ok.1 h
    obtain ⟨cs, _, rfl⟩ := withSum_ok.1 h
    simp [currentSumAt, c.reset _ _ hu]
  simulate st a v h := by
    obtain ⟨u, hu, h⟩ := post_ok.1 h
    obtain ⟨cs, _, rfl⟩ := withSum_ok.1 h
    simp [currentSumAt, c.simulate _ _ _ hu]

/-! ## Noise -/

theorem foldl_set_length (ps : List (ℕ × ℝ)) (v : List ℝ) :
    (ps.foldl (fun v p => v.set p.1 p.2) v).length = v.length := by
  induction ps generalizing v with
  | nil => rfl
  | cons p ps ih => simp [ih]

theorem foldl_set_notMem (ps : List (ℕ × ℝ)) (v : List ℝ) (i : ℕ) (h : i ∉ ps.map (·.1)) :
    (ps.foldl (fun v p => v.set p.1 p.2) v)[i]? = v[i]? := by
  induction ps generalizing v with
  | nil => rfl
  | cons p ps ih =>
    simp only [List.map_cons, List.mem_cons, not_or] at h
    rw [List.foldl_cons, ih _ h.2, List.getElem?_set_ne (fun e => h.1 e.symm)]

theorem foldl_set_mem (ps : List (ℕ × ℝ)) (v : List ℝ) (hn : (ps.map (·.1)).Nodup) (p : ℕ × ℝ) (hp : p ∈ ps)
    (hi : p.1 < v.length) : (ps.foldl (fun v p => v.set p.1 p.2) v)[p.1]? = some p.2 := by
  induction ps generalizing v with
  | nil => cases hp
  | cons p' ps ih =>
    simp only [List.map_cons, List.nodup_cons] at hn
    rw [List.foldl_cons]
    rcases List.mem_cons.1 hp with rfl | hp
    · rw [foldl_set_notMem _ _ _ hn.1]
      simp [hi]
    · exact ih _ hn.2 hp (by simpa using hi)

theorem forall₂_get {α β : Type} {R : α → β → Prop} {l : List α} {m : List β} (h : List.Forall₂ R l m) (j : ℕ) {a : α}
    (ha : l[j]? = some a) : ∃ b, m[j]? = some b ∧ R a b := by
  induction h generalizing j with
  | nil => cases ha
  | cons h _ ih =>
    cases j with
    | zero => simp at ha; subst ha; exact ⟨_, rfl, h⟩
    | succ j => exact ih j (by simpa using ha)

theorem addRow_ok {idx : List ℕ} {row v w : List ℝ} (h : addRow idx row v = .ok w) :
    ∃ cur, List.Forall₂ (fun i x => v[i]? = some x) idx cur ∧ cur.length = row.length ∧
      w = (idx.zip (List.zipWith (· + ·) cur row)).foldl (fun v p => v.set p.1 p.2) v := by
  unfold addRow at h
  obtain ⟨cur, hc, h⟩ := bind_ok'.1 h
  split at h
  · cases h
    exact ⟨cur, (mapM_ok.1 hc).imp (fun a b h => getE_ok.1 h), by assumption, rfl⟩
  · cases h

theorem addRow_length {idx : List ℕ} {row v w : List ℝ} (h : addRow idx row v = .ok w) : w.length = v.length := by
  obtain ⟨cur, _, _, rfl⟩ := addRow_ok h
  exact foldl_set_length _ _

theorem addRow_added {idx : List ℕ} {row v w : List ℝ} (h : addRow idx row v = .ok w) (hn : idx.Nodup) :
    Added idx row v w := by
  refine ⟨addRow_length h, ?_, ?_⟩
  all_goals
    obtain ⟨cur, hc, hl, rfl⟩ := addRow_ok h
    have e : idx.length = (List.zipWith (· + ·) cur row).length := by simp [← hl, hc.length_eq]
    have em : (idx.zip (List.zipWith (· + ·) cur row)).map (·.1) = idx := List.map_fst_zip e.le
  · intro i hi
    exact foldl_set_notMem _ _ _ (by rw [em]; exact hi)
  · intro j i x y hi hx hy
    obtain ⟨b, hb, hbv⟩ := forall₂_get hc j hi
    rw [hy] at hbv
    cases hbv
    have hz : (idx.zip (List.zipWith (· + ·) cur row))[j]? = some (i, y + x) := by
      rw [List.getElem?_zip_eq_some]
      exact ⟨hi, by simp [List.getElem?_zipWith, hb, hx]⟩
    exact foldl_set_mem _ _ (by rw [em]; exact hn) (i, y + x) (List.mem_of_getElem? hz)
      (List.getElem?_eq_some_iff.1 hy).1

theorem addRow_total {idx : List ℕ} {row v : List ℝ} (hi : ∀ i ∈ idx, i < v.length) (hr : row.length = idx.length) :
    ∃ w, addRow idx row v = .ok w := by
  have : ∃ cur, idx.mapM (getE v) = .ok cur := by
    induction idx generalizing row with
    | nil => exact ⟨[], rfl⟩
    | cons i idx ih =>
      obtain ⟨cur, hc⟩ := ih (row := row.tail) (fun i h => hi i (List.mem_cons_of_mem _ h)) (by simp [hr])
      have h0 := hi i List.mem_cons_self
      exact ⟨v[i] :: cur, mapM_ok.2 (.cons (getE_ok.2 (by simp [h0])) (mapM_ok.1 hc))⟩
  obtain ⟨cur, hc⟩ := this
  have hl := (mapM_ok.1 hc).length_eq
  exact ⟨_, by simp only [addRow, hc, Except.bind]; rw [if_pos (by omega)]⟩

section noise

variable {G : Type} (idx : List ℕ) (len : ℕ) (draw : G → G × List (List ℝ)) (spawn : ℕ → G) (s : PSys σ A)

/-- Rows `0..k-1` of the samples from `g` are used, the rest of the current block is in the buffer. -/
def NoiseInv (g : G) (k : ℕ) (n : NoiseSt G) : Prop :=
  ∃ j p, n.pointer = p ∧ p ≤ len ∧ k = j * len + p ∧ n.noise = some (draw (genAfter draw g j)).2 ∧
    n.gen = genAfter draw g (j + 1)

theorem sampleRow_eq (hlen : 0 < len) (g : G) (j p : ℕ) (hp : p < len) :
    sampleRow draw g len (j * len + p) = ((draw (genAfter draw g j)).2[p]?).getD [] := by
  unfold sampleRow
  have h1 : (j * len + p) / len = j := by rw [Nat.add_comm, Nat.add_mul_div_right _ _ hlen, Nat.div_eq_of_lt hp]; simp
  have h2 : (j * len + p) % len = p := by rw [Nat.add_comm, Nat.add_mul_mod_self_right, Nat.mod_eq_of_lt hp]
  rw [h1, h2]

/-- One use of the buffer that has a row left. -/
theorem addNoise_step (hlen : 0 < len) (hn : idx.Nodup)
    (hd : ∀ g, (draw g).2.length = len ∧ ∀ r ∈ (draw g).2, r.length = idx.length) (g : G) (j p : ℕ) (hp : p < len)
    (n : NoiseSt G) (hpt : n.pointer = p) (hno : n.noise = some (draw (genAfter draw g j)).2)
    (hg : n.gen = genAfter draw g (j + 1)) (v : List ℝ) (hv : ∀ i ∈ idx, i < v.length) :
    ∃ w, (addNoise idx n v).2 = .ok w ∧ Added idx (sampleRow draw g len (j * len + p)) v w ∧
      NoiseInv len draw g (j * len + p + 1) (addNoise idx n v).1 ∧ (addNoise idx n v).1.spawned = n.spawned := by
  obtain ⟨hl, hr⟩ := hd (genAfter draw g j)
  have hp' : p < (draw (genAfter draw g j)).2.length := by omega
  have hrow : (draw (genAfter draw g j)).2[p]? = some (draw (genAfter draw g j)).2[p] := List.getElem?_eq_getElem hp'
  obtain ⟨w, hw⟩ := addRow_total (row := (draw (genAfter draw g j)).2[p]) hv (hr _ (List.getElem_mem hp'))
  have e : addNoise idx n v = ({ n with pointer := n.pointer + 1 }, .ok w) := by
    simp only [addNoise, hno, hpt, hrow, hw]
  refine ⟨w, by rw [e], ?_, ?_, by rw [e]⟩
  · rw [sampleRow_eq len draw hlen g j p hp, hrow]
    exact addRow_added hw hn
  · rw [e]
    exact ⟨j, p + 1, by simp [hpt], hp, by omega, hno, hg⟩

theorem stateNoise_runs (hlen : 0 < len) (hn : idx.Nodup)
    (hd : ∀ g, (draw g).2.length = len ∧ ∀ r ∈ (draw g).2, r.length = idx.length) (c : Consistent s)
    (hi : ∀ i ∈ idx, i < s.names.length) (g : G) (as : List A) (st : σ) (n : NoiseSt G) (k : ℕ)
    (hinv : NoiseInv len draw g k n) :
    NoisyFrom idx (sampleRow draw g len) k (runs s st as).2 (runs (stateNoiseAt idx len draw spawn s) (st, n) as).2 ∧
      (runs (stateNoiseAt idx len draw spawn s) (st, n) as).1.1 = (runs s st as).1 := by
  induction as generalizing st n k with
  | nil => simp [runs, NoisyFrom]
  | cons a as ih =>
    obtain ⟨j, p, hpt, hple, hk, hno, hg⟩ := hinv
    -- the buffer after a possible refill
    obtain ⟨m, j', p', hm, hp', hk', hpt', hno', hg'⟩ : ∃ (m : NoiseSt G) (j' p' : ℕ),
        (if len ≤ n.pointer then newNoise draw n else n) = m ∧ p' < len ∧ k = j' * len + p' ∧ m.pointer = p' ∧
          m.noise = some (draw (genAfter draw g j')).2 ∧ m.gen = genAfter draw g (j' + 1) := by
      by_cases hc : len ≤ n.pointer
      · refine ⟨newNoise draw n, j + 1, 0, by rw [if_pos hc], hlen, ?_, rfl, ?_, ?_⟩
        · have : p = len := by omega
          rw [hk, this, Nat.add_mul]; simp
        · simp [newNoise, hg]
        · simp only [newNoise, hg]; rfl
      · exact ⟨n, j, p, by rw [if_neg hc], by omega, hk, hpt, hno, hg⟩
    simp only [runs]
    cases hr : (s.simulate st a).2 with
    | error e =>
      have e1 : (stateNoiseAt idx len draw spawn s).simulate (st, n) a = (((s.simulate st a).1, m), .error e) := by
        simp only [stateNoiseAt, hr, hm]
      rw [e1]
      have := ih (s.simulate st a).1 m k ⟨j', p', hpt', hp'.le, hk', hno', hg'⟩
      exact ⟨⟨rfl, this.1⟩, this.2⟩
    | ok v =>
      have hv := c.simulate _ _ _ hr
      obtain ⟨w, hw, ha, hinv', -⟩ := addNoise_step idx len draw hlen hn hd g j' p' hp' m hpt' hno' hg' v
        (fun i h => by rw [hv]; exact hi i h)
      have e1 : (stateNoiseAt idx len draw spawn s).simulate (st, n) a =
          (((s.simulate st a).1, (addNoise idx m v).1), .ok w) := by
        simp only [stateNoiseAt, hr, hm, hw]
      rw [e1]
      have := ih (s.simulate st a).1 _ (k + 1) (by rw [hk']; exact hinv')
      exact ⟨⟨by rw [hk']; exact ha, this.1⟩, this.2⟩

theorem stateNoise_reset (hlen : 0 < len) (hn : idx.Nodup)
    (hd : ∀ g, (draw g).2.length = len ∧ ∀ r ∈ (draw g).2, r.length = idx.length) (c : Consistent s)
    (hi : ∀ i ∈ idx, i < s.names.length) (st : σ × NoiseSt G) (v : List ℝ) (hv : (s.reset st.1).2 = .ok v) :
    ∃ w n, (stateNoiseAt idx len draw spawn s).reset st = (((s.reset st.1).1, n), .ok w) ∧
      Added idx (sampleRow draw (spawn st.2.spawned) len 0) v w ∧
      NoiseInv len draw (spawn st.2.spawned) 1 n ∧ n.spawned = st.2.spawned + 1 := by
  have hl := c.reset _ _ hv
  obtain ⟨w, hw, ha, hinv, hs⟩ := addNoise_step idx len draw hlen hn hd (spawn st.2.spawned) 0 0 hlen
    (newNoise draw { st.2 with gen := spawn st.2.spawned, spawned := st.2.spawned + 1 }) rfl rfl rfl v
    (fun i h => by rw [hl]; exact hi i h)
  refine ⟨w, _, ?_, by simpa using ha, by simpa using hinv, hs⟩
  simp only [stateNoiseAt, hv, hw]

theorem addNoise_length (n : NoiseSt G) (v w : List ℝ) (h : (addNoise idx n v).2 = .ok w) : w.length = v.length := by
  unfold addNoise at h
  split at h
  · cases h
  · split at h
    · cases h
    · split at h
      · cases h
      · cases h
        exact addRow_length (by assumption)

theorem stateNoiseAt_consistent {s : PSys σ A} (c : Consistent s) : Consistent (stateNoiseAt idx len draw spawn s) where
  limits := c.limits
  nominal := c.nominal
  low := c.low
  high := c.high
  pos _ _ h := enumPos_some h
  named _ h := enumPos_mem h
  reset st v h := by
    simp only [stateNoiseAt] at h
    split at h
    · cases h
    · rename_i u hu
      exact (addNoise_length idx _ _ _ h).trans (c.reset _ _ hu)
  simulate st a v h := by
    simp only [stateNoiseAt] at h
    split at h
    · cases h
    · rename_i u hu
      exact (addNoise_length idx _ _ _ h).trans (c.simulate _ _ _ hu)

end noise

/-! ## dq actions -/

theorem mulE_ok {a b : List ℝ} (h : a.length = b.length) : mulE a b = .ok (List.zipWith (· * ·) a b) := if_pos h

section dq

variable (conv : List ℝ → List ℝ → Except Err (List ℝ)) {s : PSys σ (List ℝ)}

theorem dqWith_reset (c : Consistent s) (st : σ × Option (List ℝ)) (v : List ℝ) (h : (s.reset st.1).2 = .ok v) :
    (dqWith conv s).reset st = (((s.reset st.1).1, some (List.zipWith (· * ·) v s.limits)), .ok v) := by
  have hl : v.length = s.limits.length := (c.reset _ _ h).trans c.limits.symm
  simp only [dqWith, h, mulE_ok hl]

theorem dqWith_simulate (c : Consistent s) (st : σ) (x a abc v : List ℝ) (hc : conv x a = .ok abc)
    (h : (s.simulate st abc).2 = .ok v) :
    (dqWith conv s).simulate (st, some x) a =
      (((s.simulate st abc).1, some (List.zipWith (· * ·) v s.limits)), .ok v) := by
  have hl : v.length = s.limits.length := (c.simulate _ _ _ h).trans c.limits.symm
  simp only [dqWith, hc, h, mulE_ok hl]

theorem dqWith_simulate_error (st : σ) (x a abc : List ℝ) (e : Err) (hc : conv x a = .ok abc)
    (h : (s.simulate st abc).2 = .error e) :
    (dqWith conv s).simulate (st, some x) a = (((s.simulate st abc).1, some x), .error e) := by
  simp only [dqWith, hc, h]

theorem dqWith_consistent (c : Consistent s) : Consistent (dqWith conv s) where
  limits := c.limits
  nominal := c.nominal
  low := c.low
  high := c.high
  pos _ _ h := enumPos_some h
  named _ h := enumPos_mem h
  reset st v h := by
    cases hr : (s.reset st.1).2 with
    | error e => simp [dqWith, hr] at h
    | ok u =>
      rw [dqWith_reset conv c st u hr] at h
      cases h
      exact c.reset _ _ hr
  simulate st a v h := by
    obtain ⟨st, x⟩ := st
    cases x with
    | none => simp [dqWith] at h
    | some x =>
      cases hc : conv x a with
      | error e => simp [dqWith, hc] at h
      | ok abc =>
        cases hr : (s.simulate st abc).2 with
        | error e => rw [dqWith_simulate_error conv st x a abc e hc hr] at h; cases h
        | ok u =>
          rw [dqWith_simulate conv c st x a abc u hc hr] at h
          cases h
          exact c.simulate _ _ _ hr

theorem dqWith_runs (c : Consistent s) (P : List ℝ → Prop) (I : σ → Prop)
    (hc : ∀ x a, x.length = s.names.length → P a → ∃ abc, conv x a = .ok abc)
    (hok : ∀ st a, I st → I (s.simulate st a).1 ∧ ∃ v, (s.simulate st a).2 = .ok v) (as : List (List ℝ)) (st : σ) (x : List ℝ)
    (hI : I st) (hx : x.length = s.names.length) (hP : ∀ a ∈ as, P a) :
    ∃ abcs vs : List (List ℝ), abcs.length = as.length ∧ vs.length = as.length ∧
      (runs (dqWith conv s) (st, some x) as).2 = vs.map .ok ∧ (runs s st abcs).2 = vs.map .ok ∧
      ∀ (k : ℕ) (a : List ℝ), as[k]? = some a → ∃ xk abc, (x :: vs.map (List.zipWith (· * ·) · s.limits))[k]? = some xk ∧
        abcs[k]? = some abc ∧ conv xk a = .ok abc := by
  induction as generalizing st x with
  | nil => exact ⟨[], [], rfl, rfl, rfl, rfl, fun k a h => by simp at h⟩
  | cons a as ih =>
    obtain ⟨abc, hab⟩ := hc x a hx (hP a List.mem_cons_self)
    obtain ⟨hI', v, hv⟩ := hok st abc hI
    have hvl := c.simulate _ _ _ hv
    obtain ⟨abcs, vs, h1, h2, h3, h4, h5⟩ := ih (s.simulate st abc).1 (List.zipWith (· * ·) v s.limits)
      hI' (by simp [hvl, c.limits]) (fun a h => hP a (List.mem_cons_of_mem _ h))
    refine ⟨abc :: abcs, v :: vs, by simp [h1], by simp [h2], ?_, ?_, ?_⟩
    · rw [runs, dqWith_simulate conv c st x a abc v hab hv]; simp [h3]
    · rw [runs, hv]; simp [h4]
    · intro k a' hk
      cases k with
      | zero => simp at hk; subst hk; exact ⟨x, abc, rfl, rfl, hab⟩
      | succ k =>
        obtain ⟨xk, abc', e1, e2, e3⟩ := h5 k a' (by simpa using hk)
        exact ⟨xk, abc', by simpa using e1, by simpa using e2, e3⟩

end dq

theorem t32_sum (v : Fin 2 → ℝ) : t32 v 0 + t32 v 1 + t32 v 2 = 0 := by
  simp [t32, Matrix.mulVec, dotProduct, Fin.sum_univ_two]
  ring

theorem qInv_t23_t32_q (v : Fin 2 → ℝ) (e : ℝ) : qInv (t23 (t32 (q v e))) e = v := by
  have h3 : √(3 : ℝ) ^ 2 = 3 := Real.sq_sqrt (by norm_num)
  have ht : ∀ u : Fin 2 → ℝ, t23 (t32 u) = u := by
    intro u
    funext i
    fin_cases i
    · simp [t23, t32, Matrix.mulVec, dotProduct, Fin.sum_univ_succ]; ring
    · simp [t23, t32, Matrix.mulVec, dotProduct, Fin.sum_univ_succ]
      linear_combination (1 / 3 * u 1) * h3
  have hc := Real.cos_sq_add_sin_sq e
  rw [ht]
  funext i
  fin_cases i
  · simp [qInv, q]; linear_combination v 0 * hc
  · simp [qInv, q]; linear_combination v 1 * hc

theorem dqAction_ok {d q' e : ℝ} {abc : List ℝ} (h : dqAction [d, q'] e = .ok abc) :
    ∃ w : Fin 3 → ℝ, abc = [w 0, w 1, w 2] ∧ w 0 + w 1 + w 2 = 0 ∧ qInv (t23 w) e = ![d, q'] := by
  cases h
  exact ⟨_, rfl, t32_sum _, qInv_t23_t32_q _ _⟩

theorem getE_zip {v l : List ℝ} {i : ℕ} {x y : ℝ} (h1 : v[i]? = some x) (h2 : l[i]? = some y) :
    getE (List.zipWith (· * ·) v l) i = .ok (x * y) := by
  rw [getE_ok, List.getElem?_zipWith, h1, h2]

/-! ## Flux observer -/

theorem fluxUpdate_parts (m : ImParams ℝ) (tau : ℝ) (is : Fin 3 → ℝ) (omega : ℝ) (psi : ℂ) :
    (fluxUpdate m tau is omega psi).re = psi.re + tau * (t23 is 0 * m.rr * m.lm / m.lr -
        (psi.re * (m.rr / m.lr) + psi.im * (omega * m.p))) ∧
    (fluxUpdate m tau is omega psi).im = psi.im + tau * (t23 is 1 * m.rr * m.lm / m.lr -
        (psi.im * (m.rr / m.lr) - psi.re * (omega * m.p))) := by
  have e : ((⟨t23 is 0, t23 is 1⟩ : ℂ) * (m.rr : ℂ) * (m.lm : ℂ) / ((m.lm + m.lsigr : ℝ) : ℂ)) =
      ⟨t23 is 0 * m.rr * m.lm / m.lr, t23 is 1 * m.rr * m.lm / m.lr⟩ := by
    apply Complex.ext
    · rw [Complex.div_ofReal_re]; simp [ImParams.lr]
    · rw [Complex.div_ofReal_im]; simp [ImParams.lr]
  unfold fluxUpdate
  simp only [e]
  constructor <;> simp [ImParams.lr] <;> ring

theorem scimOde_flux (m : ImParams ℝ) (i0 i1 p0 p1 eps : ℝ) (u : Fin 2 → ℝ) (omega : ℝ) :
    scimOde m ![i0, i1, p0, p1, eps] u omega 2 = i0 * m.rr * m.lm / m.lr - (p0 * (m.rr / m.lr) + p1 * (omega * m.p)) ∧
    scimOde m ![i0, i1, p0, p1, eps] u omega 3 = i1 * m.rr * m.lm / m.lr - (p1 * (m.rr / m.lr) - p0 * (omega * m.p)) := by
  constructor <;>
  simp [scimOde, imOde, imConstants, Matrix.mulVec, dotProduct, Fin.sum_univ_succ, ImParams.tauR, ImParams.lr,
    div_div_eq_mul_div] <;> ring

theorem fluxUpdate_standstill (m : ImParams ℝ) (tau : ℝ) (is : Fin 3 → ℝ) (psi : ℂ) :
    fluxUpdate m tau is 0 psi = ((1 - tau * (m.rr / m.lr) : ℝ) : ℂ) * psi +
      ((tau * (m.rr / m.lr) * m.lm : ℝ) : ℂ) * (⟨t23 is 0, t23 is 1⟩ : ℂ) := by
  obtain ⟨h1, h2⟩ := fluxUpdate_parts m tau is 0 psi
  apply Complex.ext
  · rw [h1]; simp; ring
  · rw [h2]; simp; ring

theorem fluxUpdate_free (m : ImParams ℝ) (tau omega : ℝ) (psi : ℂ) :
    fluxUpdate m tau 0 omega psi = psi * (⟨1 - tau * (m.rr / m.lr), tau * (omega * m.p)⟩ : ℂ) := by
  have ht : t23 0 = 0 := by simp [t23]
  obtain ⟨h1, h2⟩ := fluxUpdate_parts m tau 0 omega psi
  apply Complex.ext
  · rw [h1, ht]; simp; ring
  · rw [h2, ht]; simp; ring

theorem zip_mul_div {v l : List ℝ} (hl : v.length = l.length) (h : ∀ x ∈ l, x ≠ 0) :
    List.zipWith (· / ·) (List.zipWith (· * ·) v l) l = v := by
  induction v generalizing l with
  | nil => simp
  | cons x v ih =>
    cases l with
    | nil => cases hl
    | cons y l =>
      have hy := h y List.mem_cons_self
      simp only [List.zipWith_cons_cons, List.cons.injEq]
      exact ⟨by field_simp, ih (by simpa using hl) (fun z hz => h z (List.mem_cons_of_mem _ hz))⟩

theorem fluxPost_ok (m : ImParams ℝ) (tau : ℝ) (ia ib ic om : ℕ) (L : List ℝ) (psiLimit : ℝ) (psi : ℂ) (v : List ℝ)
    (a b c w la lb lc lw : ℝ) (hl : v.length = L.length) (h0 : ∀ x ∈ L, x ≠ 0)
    (ha : v[ia]? = some a) (hb : v[ib]? = some b) (hc : v[ic]? = some c) (hw : v[om]? = some w)
    (hla : L[ia]? = some la) (hlb : L[ib]? = some lb) (hlc : L[ic]? = some lc) (hlw : L[om]? = some lw) :
    fluxPost m tau ia ib ic om L (L ++ [psiLimit, π]) psi v =
      (fluxUpdate m tau ![a * la, b * lb, c * lc] (w * lw) psi,
        .ok (v ++ [‖fluxUpdate m tau ![a * la, b * lb, c * lc] (w * lw) psi‖ / psiLimit,
          (fluxUpdate m tau ![a * la, b * lb, c * lc] (w * lw) psi).arg / π])) := by
  have hz : (List.zipWith (· * ·) v L).length = L.length := by simp [hl]
  simp only [fluxPost, mulE_ok hl, getE_zip ha hla, getE_zip hb hlb, getE_zip hc hlc, getE_zip hw hlw]
  rw [divE, if_pos (by simp [hl]), List.zipWith_append (by rw [hz]), zip_mul_div hl h0]
  rfl

theorem divE_length {a b c : List ℝ} (h : divE a b = .ok c) : c.length = b.length := by
  unfold divE at h
  split at h
  · cases h; simp [*]
  · cases h

theorem fluxAt_consistent (m : ImParams ℝ) (psiLimit : ℝ) (ia ib ic om : ℕ) {s : PSys σ A} (c : Consistent s) :
    Consistent (fluxAt m psiLimit ia ib ic om s) where
  limits := by simp [fluxAt, c.limits]
  nominal := by simp [fluxAt, c.nominal]
  low := by simp [fluxAt, c.low]
  high := by simp [fluxAt, c.high]
  pos _ _ h := enumPos_some h
  named _ h := enumPos_mem h
  reset st v h := by
    obtain ⟨u, hu, rfl⟩ := map_ok'.1 h
    simp [fluxAt, c.reset _ _ hu]
  simulate st a v h := by
    simp only [fluxAt] at h
    split at h
    · cases h
    · rename_i u hu
      simp only [fluxPost] at h
      split at h
      · cases h
      · split at h
        · have := divE_length h
          simp [fluxAt, this, c.limits]
        · cases h

end GEM.Wrap
