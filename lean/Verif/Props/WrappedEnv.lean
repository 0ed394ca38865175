import Verif.Spec.WrappedEnv
import Verif.Props.Wrappers
import Verif.Props.Assembly

/-!
# C124: environments with physical system wrappers
-/

set_option linter.unusedSectionVars false

namespace GEM.Props

open GEM GEM.Assembly GEM.Wrap GEM.Motor

noncomputable section

variable {σ A G τ : Type} {p : Plant σ A} {space : A → Prop} {idle running : σ → Prop}

/-! ## The wrappers -/

theorem answers_dead (h : Answers p space idle running) {n : ℕ} (hn : 0 < n) {ra : ℕ → List A}
    (hra : ∀ k, ra k ≠ [] ∧ ∀ a ∈ ra k, space a) :
    Answers (p.under (deadTime n ra p.ps)) space (fun st => idle st.1)
      (fun st => running st.1 ∧ st.2.deque ≠ [] ∧ ∀ a ∈ st.2.deque, space a) where
  reset st hst := by
    obtain ⟨st', s, h1, h2, h3, h4⟩ := h.reset st.1 hst
    refine ⟨_, s, deadTime_reset n ra p.ps st s (by rw [h1]), h2, ⟨by rw [h1]; exact h3, ?_, ?_⟩, by rw [h1]; exact h4⟩
    · rw [extend_nil]
      have : 0 < (ra st.2.resets).length := List.length_pos_iff.2 (hra _).1
      intro e
      have := congrArg List.length e
      simp only [List.length_drop, List.length_nil] at this
      omega
    · rw [extend_nil]
      exact fun a ha => (hra _).2 a (List.mem_of_mem_drop ha)
  simulate st a hst ha := by
    obtain ⟨r1, r2, r3⟩ := hst
    have hl : st.2.deque.getLast? = some (st.2.deque.getLast r2) := List.getLast?_eq_some_getLast r2
    obtain ⟨st', s, h1, h2, h3, h4⟩ := h.simulate st.1 _ r1 (r3 _ (List.getLast_mem r2))
    refine ⟨(st', { st.2 with deque := appendLeft n st.2.deque.dropLast a }), s, by simp only [Plant.under, deadTime, hl, h1], h2,
      ⟨h3, ?_, ?_⟩, h4⟩
    · simp only [appendLeft]
      obtain ⟨k, rfl⟩ : ∃ k, n = k + 1 := ⟨n - 1, by omega⟩
      simp
    · intro b hb
      rcases List.mem_cons.1 (List.mem_of_mem_take hb) with rfl | hb
      · exact ha
      · exact r3 _ (List.mem_of_mem_dropLast hb)
  again st hst := h.again _ hst.1
  seed n st hst := h.seed n st.1 hst

theorem answers_cosSin (h : Answers p space idle running) (c : Consistent p.ps) {angle : String} {w : PSys σ A}
    (hw : cosSin angle false p.ps = .ok w) : Answers (p.same w) space idle running where
  reset st hst := by
    obtain ⟨st', s, h1, h2, h3, h4⟩ := h.reset st hst
    obtain ⟨i, x, -, -, e⟩ := c37_reset angle false p.ps w hw c st s (by rw [h1])
    have hc := c37_keep angle p.ps w hw c
    rw [h1] at e
    exact ⟨_, _, e, hc.reset st _ (by rw [e]), h3, h4⟩
  simulate st a hst ha := by
    obtain ⟨st', s, h1, h2, h3, h4⟩ := h.simulate st a hst ha
    obtain ⟨i, x, -, -, e⟩ := c37_simulate angle false p.ps w hw c st a s (by rw [h1])
    have hc := c37_keep angle p.ps w hw c
    rw [h1] at e
    exact ⟨_, _, e, hc.simulate st a _ (by rw [e]), h3, h4⟩
  again := h.again
  seed := h.seed

theorem mapM_getE_total {idx : List ℕ} {v : List ℝ} (hi : ∀ i ∈ idx, i < v.length) : ∃ cur, idx.mapM (Wrap.getE v) = .ok cur := by
  induction idx with
  | nil => exact ⟨[], rfl⟩
  | cons i idx ih =>
    obtain ⟨cur, hc⟩ := ih (fun i h => hi i (List.mem_cons_of_mem _ h))
    have h0 := hi i List.mem_cons_self
    exact ⟨v[i] :: cur, Wrap.mapM_ok.2 (.cons (Wrap.getE_ok.2 (by simp [h0])) (Wrap.mapM_ok.1 hc))⟩

theorem sum_positions {cur : List String} {m : Bool} {s w : PSys σ A} (h : currentSum cur m s = .ok w) :
    ∃ idx limit nominal, List.Forall₂ (fun k i => s.pos k = some i) cur idx ∧ w = currentSumAt idx limit nominal s := by
  unfold currentSum at h
  obtain ⟨idx, h1, h⟩ := bind_ok.1 h
  obtain ⟨limit, h2, h⟩ := bind_ok.1 h
  obtain ⟨nominal, h3, h⟩ := bind_ok.1 h
  cases h
  exact ⟨idx, limit, nominal, (Wrap.mapM_ok.1 h1).imp (fun _ _ h => position_ok.1 h), rfl⟩

theorem positions_lt {s : PSys σ A} (c : Consistent s) {cur : List String} {idx : List ℕ}
    (h : List.Forall₂ (fun k i => s.pos k = some i) cur idx) : ∀ i ∈ idx, i < s.names.length := by
  induction h with
  | nil => simp
  | cons h _ ih =>
    intro i hi
    rcases List.mem_cons.1 hi with rfl | hi
    · exact c.lt h
    · exact ih i hi

theorem answers_sum (h : Answers p space idle running) (c : Consistent p.ps) {cur : List String} {m : Bool} {w : PSys σ A}
    (hw : currentSum cur m p.ps = .ok w) : Answers (p.same w) space idle running := by
  have hc := (c38_value cur m p.ps w hw c).1
  obtain ⟨idx, limit, nominal, h5, rfl⟩ := sum_positions hw
  have hlt := positions_lt c h5
  have key : ∀ v : List ℝ, v.length = p.ps.names.length → ∃ u, withSum idx v = .ok u := by
    intro v hv
    obtain ⟨cs, e⟩ := mapM_getE_total (idx := idx) (v := v) (by rw [hv]; exact hlt)
    exact ⟨_, by simp only [withSum, e, Except.map]; rfl⟩
  refine ⟨fun st hst => ?_, fun st a hst ha => ?_, h.again, h.seed⟩
  · obtain ⟨st', s, h1, h2, h3, h4⟩ := h.reset st hst
    obtain ⟨u, hu⟩ := key s h2
    have e : (currentSumAt idx limit nominal p.ps).reset st = (st', .ok u) := by
      simp only [currentSumAt, post, h1, Except.bind, hu]
    exact ⟨st', u, e, hc.reset st u (by rw [e]), h3, h4⟩
  · obtain ⟨st', s, h1, h2, h3, h4⟩ := h.simulate st a hst ha
    obtain ⟨u, hu⟩ := key s h2
    have e : (currentSumAt idx limit nominal p.ps).simulate st a = (st', .ok u) := by
      simp only [currentSumAt, post, h1, Except.bind, hu]
    exact ⟨st', u, e, hc.simulate st a u (by rw [e]), h3, h4⟩

/-- the buffer of a noise processor between two calls -/
def Buffered (len width : ℕ) (n : NoiseSt G) : Prop :=
  n.pointer ≤ len ∧ ∃ rows, n.noise = some rows ∧ rows.length = len ∧ ∀ row ∈ rows, row.length = width

theorem buffered_new {len width : ℕ} {draw : G → G × List (List ℝ)}
    (hd : ∀ g, (draw g).2.length = len ∧ ∀ row ∈ (draw g).2, row.length = width) (n : NoiseSt G) :
    Buffered len width (newNoise draw n) ∧ (newNoise draw n).pointer = 0 :=
  ⟨⟨Nat.zero_le _, _, rfl, (hd _).1, (hd _).2⟩, rfl⟩

theorem buffered_add {len width : ℕ} {idx : List ℕ} {n : NoiseSt G} (hb : Buffered len width n) (hp : n.pointer < len)
    (hw : idx.length = width) {v : List ℝ} (hi : ∀ i ∈ idx, i < v.length) :
    ∃ n' u, addNoise idx n v = (n', .ok u) ∧ u.length = v.length ∧ Buffered len width n' := by
  obtain ⟨-, rows, h1, h2, h3⟩ := hb
  have hr : rows[n.pointer]? = some (rows[n.pointer]'(by omega)) := List.getElem?_eq_getElem _
  obtain ⟨u, hu⟩ := addRow_total (idx := idx) (row := rows[n.pointer]'(by omega)) (v := v) hi
    (by rw [h3 _ (List.getElem_mem _), hw])
  refine ⟨{ n with pointer := n.pointer + 1 }, u, by simp only [addNoise, h1, hr, hu], addRow_length hu, by simpa using hp, rows, h1, h2, h3⟩

theorem answers_noise (h : Answers p space idle running) (c : Consistent p.ps) {sel : Selection} {len : ℕ}
    {draw : G → G × List (List ℝ)} {spawn : ℕ → G} {w : PSys (σ × NoiseSt G) A} (hw : stateNoise sel len draw spawn p.ps = .ok w)
    (hlen : 0 < len) (hd : ∀ g, (draw g).2.length = len ∧ ∀ row ∈ (draw g).2, row.length = sel.iter.length) :
    Answers (p.under w) space (fun st => idle st.1) (fun st => running st.1 ∧ Buffered len sel.iter.length st.2) := by
  obtain ⟨idx, h1, rfl⟩ := map_ok'.1 hw
  have hpos := (Wrap.mapM_ok.1 h1).imp (fun _ _ h => position_ok.1 h)
  have hlt := positions_lt c hpos
  have hwd := hpos.length_eq.symm
  refine ⟨fun st hst => ?_, fun st a hst ha => ?_, fun st hst => h.again _ hst.1, fun n st hst => h.seed n st.1 hst⟩
  · obtain ⟨st', s, h1, h2, h3, h4⟩ := h.reset st.1 hst
    obtain ⟨b1, b2⟩ := buffered_new hd { st.2 with gen := spawn st.2.spawned, spawned := st.2.spawned + 1 }
    obtain ⟨n', u, e1, e2, e3⟩ := buffered_add b1 (by rw [b2]; exact hlen) hwd (v := s) (by rw [h2]; exact hlt)
    refine ⟨(st', n'), u, ?_, e2.trans h2, ⟨h3, e3⟩, h4⟩
    simp only [Plant.under, stateNoiseAt, h1, e1]
  · obtain ⟨r1, r2⟩ := hst
    obtain ⟨st', s, h1, h2, h3, h4⟩ := h.simulate st.1 a r1 ha
    have hb : Buffered len sel.iter.length (if len ≤ st.2.pointer then newNoise draw st.2 else st.2) ∧
        (if len ≤ st.2.pointer then newNoise draw st.2 else st.2).pointer < len := by
      split_ifs with hp
      · obtain ⟨b1, b2⟩ := buffered_new hd st.2
        exact ⟨b1, by rw [b2]; exact hlen⟩
      · exact ⟨r2, by omega⟩
    obtain ⟨n', u, e1, e2, e3⟩ := buffered_add hb.1 hb.2 hwd (v := s) (by rw [h2]; exact hlt)
    refine ⟨(st', n'), u, ?_, e2.trans h2, ⟨h3, e3⟩, h4⟩
    simp only [Plant.under, stateNoiseAt, h1, e1]

theorem answers_dq {p : Plant σ (List ℝ)} {space space' : List ℝ → Prop} (h : Answers p space idle running) (c : Consistent p.ps)
    {conv : List ℝ → List ℝ → Except Err (List ℝ)}
    (hc : ∀ x a, x.length = p.ps.names.length → space' a → ∃ abc, conv x a = .ok abc ∧ space abc) :
    Answers (p.under (dqWith conv p.ps)) space' (fun st => idle st.1)
      (fun st => running st.1 ∧ ∃ x, st.2 = some x ∧ x.length = p.ps.names.length) where
  reset st hst := by
    obtain ⟨st', s, h1, h2, h3, h4⟩ := h.reset st.1 hst
    have e := dqWith_reset conv c st s (by rw [h1])
    rw [h1] at e
    exact ⟨_, s, e, h2, ⟨h3, _, rfl, by simp [h2, c.limits]⟩, h4⟩
  simulate st a hst ha := by
    obtain ⟨r1, x, hx, hl⟩ := hst
    obtain ⟨abc, e1, e2⟩ := hc x a hl ha
    obtain ⟨st', s, h1, h2, h3, h4⟩ := h.simulate st.1 abc r1 e2
    have e := dqWith_simulate conv c st.1 x a abc s e1 (by rw [h1])
    rw [h1] at e
    obtain ⟨st1, st2⟩ := st
    simp only at hx
    subst hx
    exact ⟨_, s, e, h2, ⟨h3, _, rfl, by simp [h2, c.limits]⟩, h4⟩
  again st hst := h.again _ hst.1
  seed n st hst := h.seed n st.1 hst

theorem index_lt {names : List String} {k : String} {i : ℕ} (h : Wrap.indexOf names k = .ok i) : i < names.length := by
  unfold Wrap.indexOf at h
  split at h
  · rename_i hm
    cases h
    exact List.idxOf_lt_length_of_mem hm
  · cases h

theorem getE_lt {l : List ℝ} {i : ℕ} (h : i < l.length) : Wrap.getE l i = .ok l[i] := Wrap.getE_ok.2 (List.getElem?_eq_getElem h)

theorem advance_total {x : List ℝ} {an om : ℕ} (h1 : an < x.length) (h2 : om < x.length) (dead : Option ℕ) (tau pp : ℝ) :
    ∃ e, advance an om dead tau pp x = .ok e := by
  simp only [advance, getE_lt h1, getE_lt h2]
  exact ⟨_, rfl⟩

theorem dqAction_total {a : List ℝ} (h : a.length = 2) (e : ℝ) : ∃ abc, dqAction a e = .ok abc ∧ abc.length = 3 := by
  obtain ⟨d, q', rfl⟩ := List.length_eq_two.1 h
  exact ⟨_, rfl, rfl⟩

theorem answers_classic {p : Plant σ (List ℝ)} {space : List ℝ → Prop} (h : Answers p space idle running) (c : Consistent p.ps)
    {angle : String} {pp : ℝ} {w : PSys (σ × Option (List ℝ)) (List ℝ)} (hw : dqClassic angle pp p.ps = .ok w)
    (hs : ∀ a, a.length = 3 → space a) :
    Answers (p.under w) (fun a => a.length = 2) (fun st => idle st.1)
      (fun st => running st.1 ∧ ∃ x, st.2 = some x ∧ x.length = p.ps.names.length) := by
  unfold dqClassic at hw
  obtain ⟨om, h1, hw⟩ := bind_ok.1 hw
  obtain ⟨an, h2, hw⟩ := bind_ok.1 hw
  cases hw
  refine answers_dq h c fun x a hx ha => ?_
  obtain ⟨e, he⟩ := advance_total (x := x) (by rw [hx]; exact index_lt h2) (by rw [hx]; exact index_lt h1) p.ps.deadTime p.ps.tau pp
  obtain ⟨abc, e1, e2⟩ := dqAction_total ha e
  exact ⟨abc, by simp only [he, Except.bind, e1], hs _ e2⟩

theorem answers_eesm {p : Plant σ (List ℝ)} {space : List ℝ → Prop} (h : Answers p space idle running) (c : Consistent p.ps)
    {pp : ℝ} {w : PSys (σ × Option (List ℝ)) (List ℝ)} (hw : dqEesm pp p.ps = .ok w) (hs : ∀ a, a.length = 4 → space a) :
    Answers (p.under w) (fun a => a.length = 3) (fun st => idle st.1)
      (fun st => running st.1 ∧ ∃ x, st.2 = some x ∧ x.length = p.ps.names.length) := by
  unfold dqEesm at hw
  obtain ⟨om, h1, hw⟩ := bind_ok.1 hw
  obtain ⟨an, h2, hw⟩ := bind_ok.1 hw
  cases hw
  refine answers_dq h c fun x a hx ha => ?_
  obtain ⟨e, he⟩ := advance_total (x := x) (by rw [hx]; exact index_lt h2) (by rw [hx]; exact index_lt h1) p.ps.deadTime p.ps.tau pp
  obtain ⟨d, q', r, rfl⟩ := List.length_eq_three.1 ha
  obtain ⟨abc, e1, e2⟩ := dqAction_total (a := [d, q']) rfl e
  refine ⟨abc ++ [r], ?_, hs _ (by simp [e2])⟩
  simp only [he, bind, Except.bind, List.dropLast, e1]
  rfl

theorem answers_dfim {p : Plant σ (List ℝ)} {space : List ℝ → Prop} (h : Answers p space idle running) (c : Consistent p.ps)
    {pp : ℝ} {w : PSys (σ × Option (List ℝ)) (List ℝ)} (hw : dqDfim pp p.ps = .ok w) (hs : ∀ a, a.length = 6 → space a) :
    Answers (p.under w) (fun a => a.length = 4) (fun st => idle st.1)
      (fun st => running st.1 ∧ ∃ x, st.2 = some x ∧ x.length = p.ps.names.length) := by
  unfold dqDfim at hw
  obtain ⟨om, h1, hw⟩ := bind_ok.1 hw
  obtain ⟨an, h2, hw⟩ := bind_ok.1 hw
  obtain ⟨fl, h3, hw⟩ := bind_ok.1 hw
  cases hw
  refine answers_dq h c fun x a hx ha => ?_
  obtain ⟨e, he⟩ := advance_total (x := x) (by rw [hx]; exact index_lt h2) (by rw [hx]; exact index_lt h1) p.ps.deadTime p.ps.tau pp
  have hfl : fl < x.length := by rw [hx]; exact index_lt h3
  obtain ⟨abc, e1, e2⟩ := dqAction_total (a := a.take 2) (by simp [ha]) e
  obtain ⟨abc', e3, e4⟩ := dqAction_total (a := a.drop 2) (by simp [ha]) (x[fl] - e)
  refine ⟨abc ++ abc', ?_, hs _ (by simp [e2, e4])⟩
  simp only [he, bind, Except.bind, e1, getE_lt hfl, e3]

theorem flux_positions {m : ImParams ℝ} {na nb nc : String} {s : PSys σ A} {w : PSys (σ × ℂ) A} (h : fluxObserver m na nb nc s = .ok w) :
    ∃ isd ia ib ic om, s.limits[s.names.idxOf "i_sd"]? = some isd ∧ s.pos na = some ia ∧
      s.pos nb = some ib ∧ s.pos nc = some ic ∧ s.pos "omega" = some om ∧ w = fluxAt m (m.lm * isd) ia ib ic om s := by
  unfold fluxObserver at h
  obtain ⟨sd, h1, h⟩ := bind_ok.1 h
  obtain ⟨isd, h2, h⟩ := bind_ok.1 h
  obtain ⟨ia, h3, h⟩ := bind_ok.1 h
  obtain ⟨ib, h4, h⟩ := bind_ok.1 h
  obtain ⟨ic, h5, h⟩ := bind_ok.1 h
  obtain ⟨om, h6, h⟩ := bind_ok.1 h
  cases h
  refine ⟨isd, ia, ib, ic, om, ?_, position_ok.1 h3, position_ok.1 h4, position_ok.1 h5, position_ok.1 h6, rfl⟩
  unfold Wrap.indexOf at h1
  split at h1
  · cases h1
    exact Wrap.getE_ok.1 h2
  · cases h1

theorem answers_flux (h : Answers p space idle running) (c : Consistent p.ps) {m : ImParams ℝ} {na nb nc : String}
    {w : PSys (σ × ℂ) A} (hw : fluxObserver m na nb nc p.ps = .ok w) :
    Answers (p.under w) space (fun st => idle st.1) (fun st => running st.1) := by
  obtain ⟨isd, ia, ib, ic, om, -, p1, p2, p3, p4, rfl⟩ := flux_positions hw
  have hc := fluxAt_consistent m (m.lm * isd) ia ib ic om c
  refine ⟨fun st hst => ?_, fun st a hst ha => ?_, fun st hst => h.again _ hst, fun n st hst => h.seed n st.1 hst⟩
  · obtain ⟨st', s, h1, h2, h3, h4⟩ := h.reset st.1 hst
    have e : (fluxAt m (m.lm * isd) ia ib ic om p.ps).reset st = ((st', 0), .ok (s ++ [0, 0])) := by
      simp only [fluxAt, h1, Except.map]
    exact ⟨_, _, e, hc.reset st _ (by rw [e]), h3, h4⟩
  · obtain ⟨st', s, h1, h2, h3, h4⟩ := h.simulate st.1 a hst ha
    have hl : s.length = p.ps.limits.length := h2.trans c.limits.symm
    have hz : (List.zipWith (· * ·) s p.ps.limits).length = p.ps.names.length := by simp [h2, c.limits]
    have key : ∃ psi' u, fluxPost m p.ps.tau ia ib ic om p.ps.limits (p.ps.limits ++ [m.lm * isd, Real.pi]) st.2 s = (psi', .ok u) := by
      have l : ∀ {k : String} {i : ℕ}, p.ps.pos k = some i → i < (List.zipWith (· * ·) s p.ps.limits).length := by
        intro k i hi
        rw [hz]
        exact c.lt hi
      simp only [fluxPost, mulE_ok hl, getE_lt (l p1), getE_lt (l p2), getE_lt (l p3), getE_lt (l p4)]
      exact ⟨_, _, by rw [divE, if_pos (by simp [hl])]⟩
    obtain ⟨psi', u, e⟩ := key
    have e' : (fluxAt m (m.lm * isd) ia ib ic om p.ps).simulate st a = ((st', psi'), .ok u) := by
      simp only [fluxAt, h1, e]
    exact ⟨_, u, e', hc.simulate st a u (by rw [e']), h3, h4⟩

/-- What the wrapped system announces, compared with the inner one: names and bounds are appended, limits too. -/
structure Appends {σ₀ A₀ σ A : Type} (s₀ : PSys σ₀ A₀) (s : PSys σ A) (ext : List (String × ℝ × ℝ)) : Prop where
  names : s.names = s₀.names ++ ext.map (·.1)
  low : s.low = s₀.low ++ ext.map (·.2.1)
  high : s.high = s₀.high ++ ext.map (·.2.2)
  limits : s₀.limits <+: s.limits
  nominal : s₀.nominal <+: s.nominal
  tau : s.tau = s₀.tau

/-- C124 (systems): a wrapped system announces the states of the inner one in the same order and behind them what the wrappers add, its `k`
is that of the inner system, and it answers to every action of its action space if the inner system does. -/
theorem c124_systems {σ₀ A₀ : Type} {p₀ : Plant σ₀ A₀} {space₀ : A₀ → Prop} {idle running : σ₀ → Prop} (c : Consistent p₀.ps)
    (h₀ : Answers p₀ space₀ idle running) {p : Plant σ A} {space : A → Prop} {inner : σ → σ₀} {ext : List (String × ℝ × ℝ)} {noisy : Bool}
    (h : Wrapping p₀ space₀ p space inner ext noisy) :
    Consistent p.ps ∧ Appends p₀.ps p.ps ext ∧ (∀ st, p.steps st = p₀.steps (inner st)) ∧ ∃ running', Answers p space (fun st => idle (inner st)) running' := by
  induction h with
  | none => exact ⟨c, ⟨by simp, by simp, by simp, List.prefix_refl _, List.prefix_refl _, rfl⟩, fun _ => rfl, running, h₀⟩
  | dead p space inner ext _ n ra _ hn hra ih =>
    obtain ⟨c', a, k, r, h'⟩ := ih
    exact ⟨deadTime_consistent n ra c', ⟨a.names, a.low, a.high, a.limits, a.nominal, a.tau⟩, fun st => k st.1, _, answers_dead h' hn hra⟩
  | cosSin p space inner ext _ angle w _ hw ih =>
    obtain ⟨c', a, k, r, h'⟩ := ih
    refine ⟨c37_keep angle p.ps w hw c', ?_, k, _, answers_cosSin h' c' hw⟩
    obtain ⟨idx, -, rfl⟩ := map_ok'.1 hw
    exact ⟨by simp [Plant.same, cosSinAt, del, a.names], by simp [Plant.same, cosSinAt, del, a.low],
      by simp [Plant.same, cosSinAt, del, a.high], a.limits.trans ⟨_, rfl⟩, a.nominal.trans ⟨_, rfl⟩, a.tau⟩
  | sum p space inner ext _ cur mode w _ hw ih =>
    obtain ⟨c', a, k, r, h'⟩ := ih
    refine ⟨(c38_value cur mode p.ps w hw c').1, ?_, k, _, answers_sum h' c' hw⟩
    obtain ⟨idx, limit, nominal, -, rfl⟩ := sum_positions hw
    exact ⟨by simp [Plant.same, currentSumAt, a.names], by simp [Plant.same, currentSumAt, a.low],
      by simp [Plant.same, currentSumAt, a.high], a.limits.trans ⟨_, rfl⟩, a.nominal.trans ⟨_, rfl⟩, a.tau⟩
  | noise p space inner ext _ sel len draw spawn w _ hw hlen hd ih =>
    obtain ⟨c', a, k, r, h'⟩ := ih
    refine ⟨?_, ?_, fun st => k st.1, _, answers_noise h' c' hw hlen hd⟩
    · obtain ⟨idx, -, rfl⟩ := map_ok'.1 hw
      exact stateNoiseAt_consistent idx len draw spawn c'
    · obtain ⟨idx, -, rfl⟩ := map_ok'.1 hw
      exact ⟨a.names, a.low, a.high, a.limits, a.nominal, a.tau⟩
  | classic p space inner ext _ angle pp w _ hw hs ih =>
    obtain ⟨c', a, k, r, h'⟩ := ih
    refine ⟨?_, ?_, fun st => k st.1, _, answers_classic h' c' hw hs⟩
    all_goals
      unfold dqClassic at hw
      obtain ⟨om, _, hw⟩ := bind_ok.1 hw
      obtain ⟨an, _, hw⟩ := bind_ok.1 hw
      cases hw
    · exact dqWith_consistent _ c'
    · exact ⟨a.names, a.low, a.high, a.limits, a.nominal, a.tau⟩
  | eesm p space inner ext _ pp w _ hw hs ih =>
    obtain ⟨c', a, k, r, h'⟩ := ih
    refine ⟨?_, ?_, fun st => k st.1, _, answers_eesm h' c' hw hs⟩
    all_goals
      unfold dqEesm at hw
      obtain ⟨om, _, hw⟩ := bind_ok.1 hw
      obtain ⟨an, _, hw⟩ := bind_ok.1 hw
      cases hw
    · exact dqWith_consistent _ c'
    · exact ⟨a.names, a.low, a.high, a.limits, a.nominal, a.tau⟩
  | dfim p space inner ext _ pp w _ hw hs ih =>
    obtain ⟨c', a, k, r, h'⟩ := ih
    refine ⟨?_, ?_, fun st => k st.1, _, answers_dfim h' c' hw hs⟩
    all_goals
      unfold dqDfim at hw
      obtain ⟨om, _, hw⟩ := bind_ok.1 hw
      obtain ⟨an, _, hw⟩ := bind_ok.1 hw
      obtain ⟨fl, _, hw⟩ := bind_ok.1 hw
      cases hw
    · exact dqWith_consistent _ c'
    · exact ⟨a.names, a.low, a.high, a.limits, a.nominal, a.tau⟩
  | flux p space inner ext _ m na nb nc isd w _ hw hl h0 ih =>
    obtain ⟨c', a, k, r, h'⟩ := ih
    refine ⟨?_, ?_, fun st => k st.1, _, answers_flux h' c' hw⟩
    all_goals
      obtain ⟨isd', ia, ib, ic, om, e, -, -, -, -, rfl⟩ := flux_positions hw
      rw [hl, Option.some.injEq] at e
      subst e
    · exact fluxAt_consistent m _ _ _ _ _ c'
    · exact ⟨by simp [Plant.under, fluxAt, a.names], by simp [Plant.under, fluxAt, a.low],
        by simp [Plant.under, fluxAt, a.high], a.limits.trans ⟨_, rfl⟩, a.nominal.trans ⟨_, rfl⟩, a.tau⟩

/-- One wrapper more. -/
theorem carries_step {σ₀ A₀ ε B : Type} {p₀ : Plant σ₀ A₀} {p : Plant σ A} {inner : σ → σ₀} {noisy noisy' : Bool}
    (h : Carries p₀ p inner noisy) (hn : noisy' = false → noisy = false) (w : PSys (σ × ε) B)
    (hr : ∀ st v, (w.reset st).2 = .ok v → ∃ v₀, p.ps.reset st.1 = ((w.reset st).1.1, .ok v₀) ∧ (noisy' = false → v₀ <+: v))
    (hs : ∀ st a v, (w.simulate st a).2 = .ok v →
      ∃ a₀ v₀, p.ps.simulate st.1 a₀ = ((w.simulate st a).1.1, .ok v₀) ∧ (noisy' = false → v₀ <+: v)) :
    Carries p₀ (p.under w) (fun st => inner st.1) noisy' where
  reset st v hv := by
    obtain ⟨v₁, h1, h2⟩ := hr st v hv
    obtain ⟨v₀, h3, h4⟩ := h.reset st.1 v₁ (by rw [h1])
    rw [h1] at h3
    exact ⟨v₀, h3, fun e => (h4 (hn e)).trans (h2 e)⟩
  simulate st a v hv := by
    obtain ⟨a₁, v₁, h1, h2⟩ := hs st a v hv
    obtain ⟨a₀, v₀, h3, h4⟩ := h.simulate st.1 a₁ v₁ (by rw [h1])
    rw [h1] at h3
    exact ⟨a₀, v₀, h3, fun e => (h4 (hn e)).trans (h2 e)⟩
  seed n st := h.seed n st.1

theorem carries_same {σ₀ A₀ : Type} {p₀ : Plant σ₀ A₀} {p : Plant σ A} {inner : σ → σ₀} {noisy : Bool}
    (h : Carries p₀ p inner noisy) (w : PSys σ A)
    (hr : ∀ st v, (w.reset st).2 = .ok v → ∃ v₀, p.ps.reset st = ((w.reset st).1, .ok v₀) ∧ v₀ <+: v)
    (hs : ∀ st a v, (w.simulate st a).2 = .ok v → ∃ v₀, p.ps.simulate st a = ((w.simulate st a).1, .ok v₀) ∧ v₀ <+: v) :
    Carries p₀ (p.same w) inner noisy where
  reset st v hv := by
    obtain ⟨v₁, h1, h2⟩ := hr st v hv
    obtain ⟨v₀, h3, h4⟩ := h.reset st v₁ (by rw [h1])
    rw [h1] at h3
    exact ⟨v₀, h3, fun e => (h4 e).trans h2⟩
  simulate st a v hv := by
    obtain ⟨v₁, h1, h2⟩ := hs st a v hv
    obtain ⟨a₀, v₀, h3, h4⟩ := h.simulate st a v₁ (by rw [h1])
    rw [h1] at h3
    exact ⟨a₀, v₀, h3, fun e => (h4 e).trans h2⟩
  seed n st := h.seed n st

theorem carries_dq {σ₀ A₀ : Type} {p₀ : Plant σ₀ A₀} {p : Plant σ (List ℝ)} {inner : σ → σ₀} {noisy : Bool}
    (h : Carries p₀ p inner noisy) (conv : List ℝ → List ℝ → Except Err (List ℝ)) :
    Carries p₀ (p.under (dqWith conv p.ps)) (fun st => inner st.1) noisy := by
  refine carries_step h id _ (fun st v hv => ?_) fun st a v hv => ?_
  · cases h1 : (p.ps.reset st.1).2 with
    | error e => simp [dqWith, h1] at hv
    | ok v₁ =>
      cases h2 : mulE v₁ p.ps.limits with
      | error e => simp [dqWith, h1, h2] at hv
      | ok x =>
        simp only [dqWith, h1, h2, Except.ok.injEq] at hv ⊢
        exact ⟨v₁, Prod.ext rfl h1, fun _ => hv ▸ List.prefix_refl _⟩
  · cases h0 : st.2 with
    | none => simp [dqWith, h0] at hv
    | some x =>
      cases h3 : conv x a with
      | error e => simp [dqWith, h0, h3] at hv
      | ok abc =>
        cases h1 : (p.ps.simulate st.1 abc).2 with
        | error e => simp [dqWith, h0, h3, h1] at hv
        | ok v₁ =>
          cases h2 : mulE v₁ p.ps.limits with
          | error e => simp [dqWith, h0, h3, h1, h2] at hv
          | ok y =>
            simp only [dqWith, h0, h3, h1, h2, Except.ok.injEq] at hv ⊢
            exact ⟨abc, v₁, Prod.ext rfl h1, fun _ => hv ▸ List.prefix_refl _⟩

/-- C124 (values): a wrapped system calls the inner one once per call, its state vector begins with the state of the inner system (unless
noise is added), and `seed` arrives. -/
theorem c124_values {σ₀ A₀ : Type} {p₀ : Plant σ₀ A₀} {space₀ : A₀ → Prop} {p : Plant σ A} {space : A → Prop} {inner : σ → σ₀}
    {ext : List (String × ℝ × ℝ)} {noisy : Bool} (h : Wrapping p₀ space₀ p space inner ext noisy) : Carries p₀ p inner noisy := by
  induction h with
  | none => exact ⟨fun st v h => ⟨v, Prod.ext rfl h, fun _ => List.prefix_refl _⟩,
      fun st a v h => ⟨a, v, Prod.ext rfl h, fun _ => List.prefix_refl _⟩, fun _ _ => rfl⟩
  | dead p space inner ext _ n ra _ hn hra ih =>
    refine carries_step ih id _ (fun st v hv => ?_) fun st a v hv => ?_
    · cases h1 : (p.ps.reset st.1).2 with
      | error e => simp [deadTime, h1] at hv
      | ok v₁ =>
        simp only [deadTime, h1, Except.ok.injEq] at hv ⊢
        exact ⟨v₁, Prod.ext rfl h1, fun _ => hv ▸ List.prefix_refl _⟩
    · cases h1 : st.2.deque.getLast? with
      | none => simp [deadTime, h1] at hv
      | some b =>
        simp only [deadTime, h1] at hv ⊢
        exact ⟨b, v, Prod.ext rfl hv, fun _ => List.prefix_refl _⟩
  | cosSin p space inner ext _ angle w _ hw ih =>
    obtain ⟨idx, -, rfl⟩ := map_ok'.1 hw
    refine carries_same ih _ (fun st v hv => ?_) fun st a v hv => ?_
    · obtain ⟨v₁, h1, h2⟩ := post_ok.1 hv
      obtain ⟨x, -, rfl⟩ := cosSinOf_ok.1 h2
      exact ⟨v₁, Prod.ext rfl h1, _, rfl⟩
    · obtain ⟨v₁, h1, h2⟩ := post_ok.1 hv
      obtain ⟨u, h3, rfl⟩ := map_ok'.1 h2
      obtain ⟨x, -, rfl⟩ := cosSinOf_ok.1 h3
      exact ⟨v₁, Prod.ext rfl h1, _, rfl⟩
  | sum p space inner ext _ cur mode w _ hw ih =>
    obtain ⟨idx, limit, nominal, -, rfl⟩ := sum_positions hw
    refine carries_same ih _ (fun st v hv => ?_) fun st a v hv => ?_
    all_goals
      obtain ⟨v₁, h1, h2⟩ := post_ok.1 hv
      obtain ⟨x, -, rfl⟩ := map_ok'.1 h2
      exact ⟨v₁, Prod.ext rfl h1, _, rfl⟩
  | noise p space inner ext _ sel len draw spawn w _ hw hlen hd ih =>
    obtain ⟨idx, -, rfl⟩ := map_ok'.1 hw
    refine carries_step ih (by simp) _ (fun st v hv => ?_) fun st a v hv => ?_
    · cases h1 : (p.ps.reset st.1).2 with
      | error e => simp [stateNoiseAt, h1] at hv
      | ok v₁ =>
        simp only [stateNoiseAt, h1]
        exact ⟨v₁, Prod.ext rfl h1, by simp⟩
    · cases h1 : (p.ps.simulate st.1 a).2 with
      | error e => simp [stateNoiseAt, h1] at hv
      | ok v₁ =>
        simp only [stateNoiseAt]
        refine ⟨a, v₁, Prod.ext ?_ h1, by simp⟩
        simp only [h1]
  | classic p space inner ext _ angle pp w _ hw hs ih =>
    unfold dqClassic at hw
    obtain ⟨om, _, hw⟩ := bind_ok.1 hw
    obtain ⟨an, _, hw⟩ := bind_ok.1 hw
    cases hw
    exact carries_dq ih _
  | eesm p space inner ext _ pp w _ hw hs ih =>
    unfold dqEesm at hw
    obtain ⟨om, _, hw⟩ := bind_ok.1 hw
    obtain ⟨an, _, hw⟩ := bind_ok.1 hw
    cases hw
    exact carries_dq ih _
  | dfim p space inner ext _ pp w _ hw hs ih =>
    unfold dqDfim at hw
    obtain ⟨om, _, hw⟩ := bind_ok.1 hw
    obtain ⟨an, _, hw⟩ := bind_ok.1 hw
    obtain ⟨fl, _, hw⟩ := bind_ok.1 hw
    cases hw
    exact carries_dq ih _
  | flux p space inner ext _ m na nb nc isd w _ hw hl h0 ih =>
    obtain ⟨isd', ia, ib, ic, om, -, -, -, -, -, rfl⟩ := flux_positions hw
    refine carries_step ih id _ (fun st v hv => ?_) fun st a v hv => ?_
    · obtain ⟨v₁, h1, rfl⟩ := map_ok'.1 hv
      exact ⟨v₁, Prod.ext rfl h1, fun _ => ⟨_, rfl⟩⟩
    · cases h1 : (p.ps.simulate st.1 a).2 with
      | error e => simp [fluxAt, h1] at hv
      | ok v₁ =>
        simp only [fluxAt, h1] at hv ⊢
        refine ⟨a, v₁, Prod.ext rfl h1, fun _ => ?_⟩
        simp only [fluxPost] at hv
        split at hv
        · cases hv
        · rename_i x hx
          split at hv
          · unfold mulE at hx
            split_ifs at hx with hlen
            cases hx
            unfold divE at hv
            split_ifs at hv
            cases hv
            rw [List.zipWith_append (by simp [hlen]), zip_mul_div hlen h0]
            exact ⟨_, rfl⟩
          · cases hv

/-! ## The environment -/

section environment

open GEM.Core GEM.Reward GEM.Utils GEM.Constr

variable {c : WSetup σ A τ} {fresh ready : τ → Prop} {w : Wse String} {m : Monitor (List ℝ) ℝ} {idx : List ℕ} {lo hi v : ℝ}

theorem wfire_comp (c : WSetup σ A τ) (w : Wse String) (m : Monitor (List ℝ) ℝ) (idx : List ℕ)
    (env : Env (σ × τ) A (List ℝ) (List ℝ) (List ℝ) ℝ) (e : CbEvent A (List ℝ) (List ℝ) ℝ) :
    (env.fire (wcomps c w m idx) e).comp = env.comp := by
  simp only [Env.fire, wcomps]
  generalize List.range c.nCb = l
  induction l with
  | nil => rfl
  | cons i l ih => simpa using ih

/-- between the calls, as `Idle` -/
structure WIdle (idle running : σ → Prop) (fresh ready : τ → Prop) (ended : Bool)
    (env : Env (σ × τ) A (List ℝ) (List ℝ) (List ℝ) ℝ) : Prop where
  flag : env.terminated = ended
  form : idle env.comp.1
  unused : fresh env.comp.2
  running : ended = false → running env.comp.1 ∧ ready env.comp.2

theorem wreset_conforms (hm : modules c.announced = .ok (w, m, idx)) (ha : Answers c.plant space idle running)
    (hr : Provides c.gen c.plant.ps.low c.plant.ps.high fresh ready) (hseed : ∀ n t, fresh t → fresh (c.seedRef n t)) {ended : Bool}
    {env : Env (σ × τ) A (List ℝ) (List ℝ) (List ℝ) ℝ} (h : WIdle idle running fresh ready ended env) (n : ℕ) :
    ∃ env' s o, env.reset (wcomps c w m idx) n = (env', .ok o) ∧ Shows c.announced s o ∧ WIdle idle running fresh ready false env' ∧
      c.plant.steps env'.comp.1 = 0 := by
  obtain ⟨st', s, s1, s2, s3, s4⟩ := ha.reset _ (ha.seed n _ h.form)
  obtain ⟨t', r, o, h1, h2, h3, h4⟩ := hr.reset (c.seedRef n env.comp.2) s none (hseed _ _ h.unused) (by simp)
  have hobs := observation_of hm s
  have e1 : (wcomps c w m idx).psReset ((wcomps c w m idx).seed n env.comp) = ((st', c.seedRef n env.comp.2), .ok s) := by
    simp only [wcomps, s1]
  have e2 : (wcomps c w m idx).refReset (st', c.seedRef n env.comp.2) s = ((st', t'), .ok (r, o)) := by
    simp only [wcomps, h1]
  unfold Env.reset
  simp only [Env.call, wfire_comp, Call.bind, e1, e2]
  refine ⟨_, s, _, rfl, ⟨s2, hobs, h3⟩, ⟨?_, ?_, ?_, ?_⟩, ?_⟩
  · rw [fire_terminated]
  · rw [wfire_comp]
    exact ha.again _ s3
  · rw [wfire_comp]
    exact hr.fresh _ h4
  · intro _
    rw [wfire_comp]
    exact ⟨s3, h4⟩
  · rw [wfire_comp]
    exact s4

theorem wstep_conforms (hc : Coherent c.announced) (hm : modules c.announced = .ok (w, m, idx))
    (ha : Answers c.plant space idle running) (hr : Provides c.gen c.plant.ps.low c.plant.ps.high fresh ready)
    (hw : ∀ s r : List ℝ, s.length = c.plant.ps.names.length → Refs.Within c.plant.ps.low c.plant.ps.high r →
        ∀ d, d = 0 ∨ d = 1 → ∃ x, number (Reward.reward w s r d) = .ok x ∧ (d = 1 → x = v) ∧
          (d = 0 → Refs.Within c.plant.ps.low c.plant.ps.high s → lo ≤ x ∧ x ≤ hi))
    {env : Env (σ × τ) A (List ℝ) (List ℝ) (List ℝ) ℝ} (h : WIdle idle running fresh ready false env) (a : A) (hs : space a) :
    ∃ env' r, env.step (wcomps c w m idx) a = (env', .done r) ∧ StepOk c.announced lo hi v r ∧
      WIdle idle running fresh ready r.terminated env' ∧ c.plant.steps env'.comp.1 = c.plant.steps env.comp.1 + 1 := by
  obtain ⟨h1, h2⟩ := h.running rfl
  obtain ⟨st', s, e1, e2, e3, e4⟩ := ha.simulate _ a h1 hs
  obtain ⟨t', r, f1, f2, f3⟩ := hr.getRef _ s h2
  obtain ⟨t'', o, g1, g2, g3⟩ := hr.getObs _ s f3
  obtain ⟨d, d1, d2, d3⟩ := degree_of hc hm s e2
  obtain ⟨x, x1, x2, x3⟩ := hw s r e2 f2 d d2
  have hobs := observation_of hm s
  have k1 : (wcomps c w m idx).simulate env.comp a = ((st', env.comp.2), .ok s) := by simp only [wcomps, e1]
  have k2 : (wcomps c w m idx).getRef (st', env.comp.2) s = ((st', t'), .ok r) := by simp only [wcomps, f1]
  have k3 : (wcomps c w m idx).check (st', t') s = ((st', t'), .ok d) := by simp only [wcomps, d1]
  have k4 : ∀ k, (wcomps c w m idx).reward (st', t') s r k a d = ((st', t'), .ok x) := by
    intro k
    simp only [wcomps, x1]
  have k5 : (wcomps c w m idx).refObs (st', t') s = ((st', t''), .ok o) := by simp only [wcomps, g1]
  unfold Env.step
  rw [h.flag]
  simp only [Bool.false_eq_true, if_false]
  unfold Env.stepBody
  simp only [Env.call, wfire_comp, Call.bind, k1, k2, k3, k4, k5, fire_terminated]
  have hd : (1 ≤ d) ↔ d = 1 := by
    rcases d2 with rfl | rfl <;> norm_num
  refine ⟨_, _, rfl, ⟨s, ⟨e2, hobs, g2⟩, rfl, ?_, fun ht => ?_, fun ht hin => ?_⟩, ⟨?_, ?_, ?_, ?_⟩, ?_⟩
  · rw [decide_eq_true_iff, hd]
    exact d3
  · rw [decide_eq_true_iff, hd] at ht
    exact x2 ht
  · rw [decide_eq_false_iff_not, hd] at ht
    exact x3 (d2.resolve_right ht) hin
  · rw [fire_terminated]
  · rw [wfire_comp]
    exact ha.again _ e3
  · rw [wfire_comp]
    exact hr.fresh _ g3
  · intro _
    rw [wfire_comp]
    exact ⟨e3, g3⟩
  · rw [wfire_comp]
    exact e4

/-- C124: an environment whose wrapped physical system answers (`c124_systems`) and whose reference generator provides references for the
wrapped state space.  In every history of resets and steps with actions of the action space of the outermost wrapper: a reset always
answers, a step of a running episode always answers, steps at other times are rejected; every observation shows one value per observed
state of the wrapped system and a reference inside the reference space; the episode ends exactly if the wrapped state violates a
constraint; the reward is then the violation reward, and otherwise lies in `reward_range` if the state lies in the state space.
`physical_system.k` counts the steps since the last reset. -/
theorem c124_environment_partial (hc : Coherent c.announced) (hm : modules c.announced = .ok (w, m, idx))
    (ha : Answers c.plant space idle running) (hr : Provides c.gen c.plant.ps.low c.plant.ps.high fresh ready)
    (hseed : ∀ n t, fresh t → fresh (c.seedRef n t)) (x : σ × τ) (hx : idle x.1) (hf : fresh x.2) (hk : c.plant.steps x.1 = 0)
    (ops : List (Op (σ × τ) A)) (hops : ∀ op ∈ ops, Proper space op) :
    ∃ lo hi v, w.range = some (lo, hi) ∧ w.violation = some (.fin v) ∧
      Conforms c.announced lo hi v true (Core.run (wcomps c w m idx) (Env.init (wcomps c w m idx) x) ops).2 ∧
      c.plant.steps (Core.run (wcomps c w m idx) (Env.init (wcomps c w m idx) x) ops).1.comp.1
        = stepsSinceReset (Core.run (wcomps c w m idx) (Env.init (wcomps c w m idx) x) ops).2 := by
  obtain ⟨lo, hi, v, w1, w2, w3⟩ := reward_of hc hm
  refine ⟨lo, hi, v, w1, w2, ?_⟩
  have key : ∀ (ops : List (Op (σ × τ) A)) (_ : ∀ op ∈ ops, Proper space op) (ended : Bool)
      (env : Env (σ × τ) A (List ℝ) (List ℝ) (List ℝ) ℝ), WIdle idle running fresh ready ended env →
      Conforms c.announced lo hi v ended (Core.run (wcomps c w m idx) env ops).2 ∧
        c.plant.steps (Core.run (wcomps c w m idx) env ops).1.comp.1
          = (Core.run (wcomps c w m idx) env ops).2.foldl (fun n h => match h with
            | (.reset _, _) => 0
            | (.step _, .step (.done _)) => n + 1
            | _ => n) (c.plant.steps env.comp.1) := by
    intro ops
    induction ops with
    | nil => intro _ ended env _; exact ⟨by simp [Core.run, Conforms], rfl⟩
    | cons op ops ih =>
      intro hops ended env h
      have ih := ih (fun op hop => hops op (List.mem_cons_of_mem _ hop))
      have hop := hops op List.mem_cons_self
      cases op with
      | reset n =>
        obtain ⟨env', s, o, h1, h2, h3, h4⟩ := wreset_conforms hm ha hr hseed h n
        obtain ⟨i1, i2⟩ := ih false env' h3
        simp only [Core.run, Core.apply, h1, List.foldl_cons, Conforms]
        rw [h4] at i2
        exact ⟨⟨⟨s, o, rfl, h2⟩, i1⟩, i2⟩
      | step a =>
        cases ended with
        | true =>
          obtain ⟨i1, i2⟩ := ih true env h
          have e : env.step (wcomps c w m idx) a = (env, .rejected) := by
            unfold Env.step
            rw [h.flag]
            rfl
          simp only [Core.run, Core.apply, e, List.foldl_cons, Conforms]
          exact ⟨⟨trivial, i1⟩, i2⟩
        | false =>
          obtain ⟨env', r, h1, h2, h3, h4⟩ := wstep_conforms hc hm ha hr w3 h a hop
          obtain ⟨i1, i2⟩ := ih r.terminated env' h3
          simp only [Core.run, Core.apply, h1, List.foldl_cons, Conforms]
          rw [h4] at i2
          exact ⟨⟨r, rfl, h2, i1⟩, i2⟩
      | setRef f => exact hop.elim
      | setReward f => exact hop.elim
      | close =>
        have h' : WIdle idle running fresh ready ended (env.fire (wcomps c w m idx) .close) :=
          ⟨by rw [fire_terminated]; exact h.flag, by rw [wfire_comp]; exact h.form, by rw [wfire_comp]; exact h.unused,
            by rw [wfire_comp]; exact h.running⟩
        obtain ⟨i1, i2⟩ := ih ended _ h'
        rw [wfire_comp] at i2
        simp only [Core.run, Core.apply, List.foldl_cons]
        refine ⟨?_, i2⟩
        cases ended <;> simpa only [Conforms] using i1
  have h0 : WIdle idle running fresh ready true (Env.init (wcomps c w m idx) x) := by
    refine ⟨by unfold Env.init; rw [fire_terminated], ?_, ?_, by simp⟩
    · unfold Env.init; rw [wfire_comp]; exact hx
    · unfold Env.init; rw [wfire_comp]; exact hf
  obtain ⟨k1, k2⟩ := key ops hops true _ h0
  refine ⟨k1, ?_⟩
  have hk' : c.plant.steps (Env.init (wcomps c w m idx) x).comp.1 = 0 := by
    unfold Env.init
    rw [wfire_comp, hk]
  rw [k2, hk', stepsSinceReset]
  congr 1
  funext n h
  obtain ⟨op, out⟩ := h
  cases op <;> cases out <;> try rfl
  rename_i r
  cases r <;> rfl

end environment

end

end GEM.Props
