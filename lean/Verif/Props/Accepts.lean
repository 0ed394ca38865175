import Verif.Props.Episodes
import Verif.Props.Systems

/-!
# C109: actions of the action space are accepted
-/

set_option linter.unusedSectionVars false

namespace GEM.Props

open GEM GEM.Conv GEM.Motor GEM.Sys

noncomputable section

/-! ## Statement -/

section statement

variable {Y U A S C P : Type}

/-- After every reset to an ODE state of the right shape, every step with an action of the action space returns a state with `len`
entries, whatever actions of the action space were taken before; the converter keeps its form, so that the same holds after every
further reset. -/
def AcceptsAll (p : Parts ℝ Y U A S C P) (f : Frame ℝ Y U A) (rep : Y → List ℝ → List ℝ → Except Err (List ℝ)) (tau : ℝ)
    (limits : List ℝ) (len : ℕ) (conv : C → Prop) (shape : Y → Prop) (space : A → Prop) : Prop :=
  ∀ (st : St ℝ S C P) (y : Y) (as : ℕ → A), conv st.conv → shape y → (∀ n, space (as n)) →
    (∃ s, (reset p rep limits st y).2 = .ok s ∧ s.length = len) ∧
    ∀ n, conv (simulates p f tau limits (reset p rep limits st y).1 ((List.range n).map as)).conv ∧
      ∃ s, (simulate p f tau limits (simulates p f tau limits (reset p rep limits st y).1 ((List.range n).map as)) (as n)).2
      = .ok s ∧ s.length = len

/-- Supplies with one voltage, and solvers that keep the shape of the state (number of mechanical states, number of motor states). -/
structure Shaped (p : Parts ℝ Y U A S C P) (shape : Y → Prop) : Prop where
  voltage : ∀ s t i, (p.getVoltage s t i).2.length = 1
  supply : ∀ s, (p.supplyReset s).2.length = 1
  integrate : ∀ s u t, shape (p.solverY s) → shape (p.solverY (p.integrate s u t))
  initial : ∀ s y t, shape y → shape (p.solverY (p.setInitial s y t))

/-- components with this converter -/
def Uses (p : Parts ℝ Y U A S C P) (pw : Power A C) : Prop :=
  p.setAction = pw.setAction ∧ p.convert = pw.convert ∧ p.iSup = pw.iSup ∧ p.convReset = pw.reset

end statement

/-! ## The general argument -/

/-- Converters whose methods do not raise: `idle` between the steps, `busy` within a step; `once` if they switch at the end of a
step only. -/
structure Safe {A C : Type} (pw : Power A C) (idle busy : C → Prop) (legal : A → Prop) (n : ℕ) (once : Prop) : Prop where
  set : ∀ c a t, idle c → legal a → ∃ c' ts, pw.setAction c a t = (c', .ok ts) ∧ busy c' ∧ (once → ts.dropLast = [])
  iSup : ∀ c i, busy c → i.length = n → ∃ w, pw.iSup c i = .ok w
  convert : ∀ c i t, busy c → i.length = n → ∃ c' u, pw.convert c i t = (c', .ok u) ∧ u.length = n ∧ busy c'
  idle_of_busy : ∀ c, busy c → idle c
  reset : ∀ c, idle c → idle (pw.reset c).1 ∧ (pw.reset c).2.length = n

/-- Systems whose computations fit a converter with `n` outputs and have states with `len` entries. -/
structure Fits {Y U A : Type} (f : Frame ℝ Y U A) (rep : Y → List ℝ → List ℝ → Except Err (List ℝ)) (shape : Y → Prop) (n len : ℕ)
    (space legal : A → Prop) (once : Prop) : Prop where
  iIn : ∀ y, shape y → (f.iIn y).length = n
  action : ∀ y a, space a → legal (f.action y a)
  loopU : ¬ once → ∀ y u, u.length = n → ∃ v, f.loopU y u = .ok v
  lastU : ∀ y u, u.length = n → ∃ v, f.lastU y u = .ok v
  report : ∀ y y' u us, shape y → shape y' → u.length = n → us.length = 1 → ∃ s, f.report y y' u us = .ok s ∧ s.length = len
  rep : ∀ y u us, shape y → u.length = n → us.length = 1 → ∃ s, rep y u us = .ok s ∧ s.length = len

theorem products_length (u us : List ℝ) (h : us.length = 1) : (products u us).length = u.length := by
  obtain ⟨v, rfl⟩ := List.length_eq_one_iff.1 h
  simp [products]

theorem divLimits_ok {s limits : List ℝ} (h : s.length = limits.length) : ∃ r, divLimits s limits = .ok r ∧ r.length = s.length :=
  ⟨_, if_pos h, by simp [h]⟩

section general

variable {Y U A S C P : Type} {p : Parts ℝ Y U A S C P} {f : Frame ℝ Y U A} {rep : Y → List ℝ → List ℝ → Except Err (List ℝ)}
  {pw : Power A C} {idle busy : C → Prop} {legal space : A → Prop} {n len : ℕ} {once : Prop} {shape : Y → Prop}

theorem piece_accepts (hp : Shaped p shape) (hu : Uses p pw) (hs : Safe pw idle busy legal n once)
    (hf : Fits f rep shape n len space legal once) (toU : Y → List ℝ → Except Err U)
    (hU : ∀ y u, u.length = n → ∃ v, toU y u = .ok v) (st : St ℝ S C P) (hc : busy st.conv) (hy : shape (p.solverY st.solver))
    (t : ℝ) :
    ∃ st' u us, piece p f toU st t = (st', .ok (u, us)) ∧ u.length = n ∧ us.length = 1 ∧ busy st'.conv ∧
      shape (p.solverY st'.solver) := by
  obtain ⟨-, u2, u3, -⟩ := hu
  have hi := hf.iIn _ hy
  obtain ⟨w, hw⟩ := hs.iSup _ _ hc hi
  obtain ⟨c', u, hcv, hl, hb⟩ := hs.convert st.conv _ (p.solverT st.solver) hc hi
  have hv := hp.voltage st.supply st.t w
  have hlen : (products u (p.getVoltage st.supply st.t w).2).length = n := by rw [products_length _ _ hv, hl]
  obtain ⟨v, hvv⟩ := hU (p.solverY st.solver) _ hlen
  refine ⟨_, _, _, by unfold piece; simp only [u2, u3, hw, hcv, hvv]; rfl, hlen, hv, hb, ?_⟩
  exact hp.integrate _ _ _ hy

theorem pieces_accepts (hp : Shaped p shape) (hu : Uses p pw) (hs : Safe pw idle busy legal n once)
    (hf : Fits f rep shape n len space legal once) (ts : List ℝ) (hts : once → ts = []) (st : St ℝ S C P) (hc : busy st.conv)
    (hy : shape (p.solverY st.solver)) :
    ∃ st', pieces p f ts st = (st', .ok ()) ∧ busy st'.conv ∧ shape (p.solverY st'.solver) := by
  induction ts generalizing st with
  | nil => exact ⟨st, rfl, hc, hy⟩
  | cons t ts ih =>
    have ho : ¬ once := fun h => by simpa using hts h
    obtain ⟨st', u, us, h1, -, -, h2, h3⟩ := piece_accepts hp hu hs hf f.loopU (hf.loopU ho) st hc hy t
    obtain ⟨st'', h4, h5⟩ := ih (fun h => absurd h ho) st' h2 h3
    exact ⟨st'', by simp only [pieces, h1, Call.bind, h4], h5⟩

theorem simulate_accepts (hp : Shaped p shape) (hu : Uses p pw) (hs : Safe pw idle busy legal n once)
    (hf : Fits f rep shape n len space legal once) (tau : ℝ) {limits : List ℝ} (hl : limits.length = len) (st : St ℝ S C P)
    (hc : idle st.conv) (hy : shape (p.solverY st.solver)) (a : A) (ha : space a) :
    ∃ st' s, simulate p f tau limits st a = (st', .ok s) ∧ s.length = len ∧ idle st'.conv ∧ shape (p.solverY st'.solver) := by
  obtain ⟨c', ts, h1, h2, h3⟩ := hs.set st.conv _ st.t hc (hf.action (p.solverY st.solver) a ha)
  obtain ⟨st1, h4, h5, h6⟩ := pieces_accepts hp hu hs hf ts.dropLast h3 { st with conv := c' } h2 hy
  obtain ⟨st2, u, us, h7, h8, h9, h10, h11⟩ := piece_accepts hp hu hs hf f.lastU hf.lastU st1 h5 h6 (st1.t + tau)
  obtain ⟨s, h12, h13⟩ := hf.report (p.solverY st1.solver) (p.solverY st2.solver) u us h6 h11 h8 h9
  obtain ⟨r, h14, h15⟩ := divLimits_ok (s := s) (limits := limits) (by rw [h13, hl])
  refine ⟨{ st2 with t := p.solverT st2.solver, k := st2.k + 1 }, r, ?_, by rw [h15, h13], hs.idle_of_busy _ h10, h11⟩
  unfold simulate
  simp only [hu.1, h1, h4, Call.bind, h7, h12, Except.bind, h14]

theorem accepts_all (hp : Shaped p shape) (hu : Uses p pw) (hs : Safe pw idle busy legal n once)
    (hf : Fits f rep shape n len space legal once) (tau : ℝ) {limits : List ℝ} (hl : limits.length = len) :
    AcceptsAll p f rep tau limits len idle shape space := by
  intro st y as hc hy has
  have h0 := hs.reset st.conv hc
  have hr : ∃ s, (reset p rep limits st y).2 = .ok s ∧ s.length = len := by
    have hv := hp.supply st.supply
    obtain ⟨s, h1, h2⟩ := hf.rep y (products (pw.reset st.conv).2 (p.supplyReset st.supply).2) (p.supplyReset st.supply).2 hy
      (by rw [products_length _ _ hv, h0.2]) hv
    obtain ⟨r, h3, h4⟩ := divLimits_ok (s := s) (limits := limits) (by rw [h2, hl])
    refine ⟨r, ?_, by rw [h4, h2]⟩
    unfold reset
    simp only [hu.2.2.2, h1, Except.bind, h3]
  refine ⟨hr, fun n => ?_⟩
  have inv : ∀ n, idle (simulates p f tau limits (reset p rep limits st y).1 ((List.range n).map as)).conv ∧
      shape (p.solverY (simulates p f tau limits (reset p rep limits st y).1 ((List.range n).map as)).solver) := by
    intro n
    induction n with
    | zero =>
      refine ⟨?_, hp.initial _ _ _ hy⟩
      show idle (p.convReset st.conv).1
      rw [hu.2.2.2]
      exact h0.1
    | succ n ih =>
      obtain ⟨st', s, h1, -, h2, h3⟩ := simulate_accepts hp hu hs hf tau hl _ ih.1 ih.2 (as n) (has n)
      have e : simulates p f tau limits (reset p rep limits st y).1 ((List.range (n + 1)).map as)
          = (simulate p f tau limits (simulates p f tau limits (reset p rep limits st y).1 ((List.range n).map as)) (as n)).1 := by
        simp [simulates, List.range_succ]
      rw [e, h1]
      exact ⟨h2, h3⟩
  obtain ⟨st', s, h1, h2, -⟩ := simulate_accepts hp hu hs hf tau hl _ (inv n).1 (inv n).2 (as n) (has n)
  exact ⟨(inv n).1, s, by rw [h1], h2⟩

end general

/-! ## The converters -/

/-- one, two, four quadrants, three phases -/
inductive ConvKind
  | one | two | four | b6

/-- number of outputs -/
def ConvKind.dim : ConvKind → ℕ
  | .b6 => 3
  | _ => 1

/-- number of actions of the finite converter -/
def ConvKind.actions : ConvKind → ℕ
  | .one => 2 | .two => 3 | .four => 4 | .b6 => 8

/-- kind of a finite converter -/
def fKind : FConv ℝ → ConvKind
  | .one _ => .one | .two _ => .two | .four _ => .four | .b6 _ => .b6

/-- kind of a continuous converter -/
def cKind : CConv ℝ → ConvKind
  | .one _ => .one | .two _ => .two | .four _ => .four | .b6 _ => .b6

theorem fKind_dim (c : FConv ℝ) : c.dim = (fKind c).dim := by cases c <;> rfl
theorem fKind_actions (c : FConv ℝ) : c.nActions = (fKind c).actions := by cases c <;> rfl
theorem cKind_dim (c : CConv ℝ) : c.dim = (cKind c).dim := by cases c <;> rfl

/-- The half bridges of a finite converter are open, high or low; so they are when it is made, and no method changes that. -/
def Switched : FConv ℝ → Prop
  | .one _ => True
  | .two c => c.state ≤ 2
  | .four c => c.sub0.state ≤ 2 ∧ c.sub1.state ≤ 2
  | .b6 c => c.s0.state ≤ 2 ∧ c.s1.state ≤ 2 ∧ c.s2.state ≤ 2

/-- finite converters of this kind -/
def IsF (k : ConvKind) (c : FConv ℝ) : Prop := fKind c = k ∧ Switched c
/-- continuous converters of this kind -/
def IsC (k : ConvKind) (c : CConv ℝ) : Prop := cKind c = k

/-- a half bridge that has got an action -/
def SetTwo (c : TwoQC ℝ) : Prop := c.state ≤ 2 ∧ c.pattern ≠ [] ∧ ∀ s ∈ c.pattern, s ≤ 2

/-- finite converters that have got an action -/
def BusyF (k : ConvKind) (c : FConv ℝ) : Prop := fKind c = k ∧ match c with
  | .one _ => True
  | .two c => SetTwo c
  | .four c => SetTwo c.sub0 ∧ SetTwo c.sub1
  | .b6 c => SetTwo c.s0 ∧ SetTwo c.s1 ∧ SetTwo c.s2

theorem two_set {c : TwoQC ℝ} (h : c.state ≤ 2) {a : ℕ} (ha : a < 3) (t : ℝ) :
    ∃ c' ts, c.setAction a t = (c', .ok ts) ∧ SetTwo c' := by
  unfold TwoQC.setAction
  rw [if_pos ha]
  split_ifs
  · exact ⟨_, _, rfl, h, by simp, by simp; omega⟩
  · exact ⟨_, _, rfl, h, by simp, by simp; omega⟩

theorem two_iSup {c : TwoQC ℝ} (h : SetTwo c) (x : ℝ) (xs : List ℝ) : ∃ w, c.iSup (x :: xs) = .ok w := by
  obtain ⟨h, -⟩ := h
  unfold TwoQC.iSup
  obtain h | h | h : c.state = 0 ∨ c.state = 1 ∨ c.state = 2 := by omega
  all_goals simp [h]

theorem two_convert {c : TwoQC ℝ} (h : SetTwo c) (x : ℝ) (xs : List ℝ) (t : ℝ) :
    ∃ c' u, c.convert (x :: xs) t = (c', .ok [u]) ∧ SetTwo c' := by
  obtain ⟨-, h2, h3⟩ := h
  have : ∃ s ≤ 2, (if t - c.tau / 1000 > c.start + c.il then c.pattern.getLast? else c.pattern.head?) = some s := by
    split_ifs
    · exact ⟨_, h3 _ (List.getLast_mem h2), List.getLast?_eq_some_getLast h2⟩
    · exact ⟨_, h3 _ (List.head_mem h2), List.head?_eq_some_head h2⟩
  obtain ⟨s, hs, e⟩ := this
  unfold TwoQC.convert
  rw [e]
  obtain rfl | rfl | rfl : s = 0 ∨ s = 1 ∨ s = 2 := by omega
  · exact ⟨_, _, rfl, by simp, h2, h3⟩
  · exact ⟨_, _, rfl, by simp, h2, h3⟩
  · exact ⟨_, _, rfl, by simp, h2, h3⟩

theorem one_of_length {i : List ℝ} (h : i.length = 1) : ∃ x, i = [x] := List.length_eq_one_iff.1 h

theorem f_safe (k : ConvKind) : Safe finitePower (IsF k) (BusyF k) (fun a => a < k.actions) k.dim False where
  set := by
    rintro (c | c | c | c) a t ⟨rfl, hs⟩ ha
    · refine ⟨_, _, by simp only [finitePower, FConv.setAction, OneQC.setAction, if_pos (show a < 2 from ha)]; rfl, ?_, False.elim⟩
      exact ⟨rfl, trivial⟩
    · obtain ⟨c', ts, h1, h2⟩ := two_set hs ha t
      refine ⟨_, _, by simp only [finitePower, FConv.setAction, h1]; rfl, ?_, False.elim⟩
      exact ⟨rfl, h2⟩
    · have a0 : fourAction0 a < 3 := by unfold fourAction0; split <;> norm_num
      have a1 : fourAction1 a < 3 := by unfold fourAction1; split <;> norm_num
      obtain ⟨c0, t0, h1, h2⟩ := two_set hs.1 a0 t
      obtain ⟨c1, t1, h3, h4⟩ := two_set hs.2 a1 t
      refine ⟨_, _, by simp only [finitePower, FConv.setAction, FourQC.setAction, if_pos (show a < 4 from ha), h1, h3]; rfl, ?_, False.elim⟩
      exact ⟨rfl, h2, h4⟩
    · obtain ⟨a0, a1, a2⟩ : (b6Sub a).1 < 3 ∧ (b6Sub a).2.1 < 3 ∧ (b6Sub a).2.2 < 3 := by unfold b6Sub; split <;> norm_num
      obtain ⟨c0, t0, h1, h2⟩ := two_set hs.1 a0 t
      obtain ⟨c1, t1, h3, h4⟩ := two_set hs.2.1 a1 t
      obtain ⟨c2, t2, h5, h6⟩ := two_set hs.2.2 a2 t
      refine ⟨_, _, by simp only [finitePower, FConv.setAction, B6.setAction, if_pos (show a < 8 from ha), h1, h3, h5]; rfl, ?_, False.elim⟩
      exact ⟨rfl, h2, h4, h6⟩
  iSup := by
    rintro (c | c | c | c) i ⟨rfl, hs⟩ hi
    · obtain ⟨x, rfl⟩ := one_of_length hi
      simp only [finitePower, FConv.iSup, OneQC.iSup]
      split_ifs <;> exact ⟨_, rfl⟩
    · obtain ⟨x, rfl⟩ := one_of_length hi
      exact two_iSup hs x []
    · obtain ⟨x, rfl⟩ := one_of_length hi
      obtain ⟨w0, h0⟩ := two_iSup hs.1 x []
      obtain ⟨w1, h1⟩ := two_iSup hs.2 (-x) []
      exact ⟨_, by simp only [finitePower, FConv.iSup, FourQC.iSup, h0, h1]; rfl⟩
    · obtain ⟨x, y, z, rfl⟩ := List.length_eq_three.1 hi
      obtain ⟨w0, h0⟩ := two_iSup hs.1 x []
      obtain ⟨w1, h1⟩ := two_iSup hs.2.1 y []
      obtain ⟨w2, h2⟩ := two_iSup hs.2.2 z []
      exact ⟨_, by simp only [finitePower, FConv.iSup, B6.iSup, sumZip, h0, h1, h2]; rfl⟩
  convert := by
    rintro (c | c | c | c) i t ⟨rfl, hs⟩ hi
    · obtain ⟨x, rfl⟩ := one_of_length hi
      exact ⟨_, _, rfl, rfl, rfl, trivial⟩
    · obtain ⟨x, rfl⟩ := one_of_length hi
      obtain ⟨c', u, h1, h2⟩ := two_convert hs x [] t
      refine ⟨_, _, by simp only [finitePower, FConv.convert, h1]; rfl, rfl, ?_⟩
      exact ⟨rfl, h2⟩
    · obtain ⟨x, rfl⟩ := one_of_length hi
      obtain ⟨c0, u0, h1, h2⟩ := two_convert hs.1 x [] t
      obtain ⟨c1, u1, h3, h4⟩ := two_convert hs.2 (-x) [] t
      refine ⟨_, _, by simp only [finitePower, FConv.convert, FourQC.convert, h1, h3]; rfl, rfl, ?_⟩
      exact ⟨rfl, h2, h4⟩
    · obtain ⟨x, y, z, rfl⟩ := List.length_eq_three.1 hi
      obtain ⟨c0, u0, h1, h2⟩ := two_convert hs.1 x [] t
      obtain ⟨c1, u1, h3, h4⟩ := two_convert hs.2.1 y [] t
      obtain ⟨c2, u2, h5, h6⟩ := two_convert hs.2.2 z [] t
      refine ⟨_, _, by simp only [finitePower, FConv.convert, B6.convert, h1, h3, h5]; rfl, rfl, ?_⟩
      exact ⟨rfl, h2, h4, h6⟩
  idle_of_busy := by
    rintro (c | c | c | c) ⟨rfl, hs⟩
    · exact ⟨rfl, trivial⟩
    · exact ⟨rfl, hs.1⟩
    · exact ⟨rfl, hs.1.1, hs.2.1⟩
    · exact ⟨rfl, hs.1.1, hs.2.1.1, hs.2.2.1⟩
  reset := by
    rintro (c | c | c | c) ⟨rfl, hs⟩
    all_goals exact ⟨⟨rfl, hs⟩, rfl⟩

theorem c_safe (k : ConvKind) : Safe contPower (IsC k) (IsC k) (fun a => a.length = k.dim) k.dim False where
  set := by
    rintro (c | c | c | c) a t rfl ha
    · obtain ⟨x, rfl⟩ := one_of_length ha
      exact ⟨_, _, rfl, rfl, False.elim⟩
    · obtain ⟨x, rfl⟩ := one_of_length ha
      exact ⟨_, _, rfl, rfl, False.elim⟩
    · obtain ⟨x, rfl⟩ := one_of_length ha
      exact ⟨_, _, rfl, rfl, False.elim⟩
    · obtain ⟨x, y, z, rfl⟩ := List.length_eq_three.1 ha
      exact ⟨_, _, rfl, rfl, False.elim⟩
  iSup := by
    rintro (c | c | c | c) i rfl hi
    · obtain ⟨x, rfl⟩ := one_of_length hi
      exact ⟨_, rfl⟩
    · obtain ⟨x, rfl⟩ := one_of_length hi
      exact ⟨_, rfl⟩
    · obtain ⟨x, rfl⟩ := one_of_length hi
      exact ⟨_, rfl⟩
    · obtain ⟨x, y, z, rfl⟩ := List.length_eq_three.1 hi
      exact ⟨_, rfl⟩
  convert := by
    rintro (c | c | c | c) i t rfl hi
    · obtain ⟨x, rfl⟩ := one_of_length hi
      exact ⟨_, _, rfl, rfl, rfl⟩
    · obtain ⟨x, rfl⟩ := one_of_length hi
      exact ⟨_, _, rfl, rfl, rfl⟩
    · obtain ⟨x, rfl⟩ := one_of_length hi
      exact ⟨_, _, rfl, rfl, rfl⟩
    · obtain ⟨x, y, z, rfl⟩ := List.length_eq_three.1 hi
      exact ⟨_, _, rfl, rfl, rfl⟩
  idle_of_busy c h := h
  reset := by
    rintro (c | c | c | c) rfl
    all_goals exact ⟨rfl, rfl⟩

/-- number of outputs of a multi converter -/
def dims (ks : List ConvKind) : ℕ := (ks.map ConvKind.dim).sum

theorem fMulti_safe (ks : List ConvKind) :
    Safe finiteMulti (List.Forall₂ IsF ks) (List.Forall₂ BusyF ks) (List.Forall₂ (fun k a => a < k.actions) ks) (dims ks) False where
  set := by
    intro cs as t hc ha
    have : ∃ cs' ts, multiSetActionAux cs as t = (cs', .ok ts) ∧ List.Forall₂ BusyF ks cs' := by
      induction hc generalizing as with
      | nil => exact ⟨_, _, rfl, .nil⟩
      | @cons k c ks cs h _ ih =>
        obtain ⟨a, as, rfl⟩ : ∃ a as', as = a :: as' := by cases ha; exact ⟨_, _, rfl⟩
        obtain ⟨h1, h2⟩ := List.forall₂_cons.1 ha
        obtain ⟨c', ts, e1, b1, -⟩ := (f_safe k).set c a t h h1
        obtain ⟨cs', tss, e2, b2⟩ := ih as h2
        have e1 : c.setAction a t = (c', .ok ts) := e1
        exact ⟨_, _, by simp only [multiSetActionAux, e1, e2]; rfl, .cons b1 b2⟩
    obtain ⟨cs', ts, e, b⟩ := this
    exact ⟨_, _, by simp only [finiteMulti, multiSetAction, e]; rfl, b, False.elim⟩
  iSup := by
    intro cs i hc hi
    induction hc generalizing i with
    | nil => exact ⟨_, rfl⟩
    | @cons k c ks cs h _ ih =>
      have hd : c.dim = k.dim := by rw [fKind_dim, h.1]
      simp only [dims, List.map_cons, List.sum_cons] at hi
      obtain ⟨w0, e0⟩ := (f_safe k).iSup c (i.take k.dim) h (by simp [hi])
      obtain ⟨w1, e1⟩ := ih (i.drop k.dim) (by simp [hi, dims])
      have e0 : c.iSup _ = _ := e0
      have e1 : multiISup cs _ = _ := e1
      exact ⟨_, by simp only [finiteMulti, multiISup, hd, e0, e1]; rfl⟩
  convert := by
    intro cs i t hc hi
    induction hc generalizing i with
    | nil => exact ⟨_, _, rfl, rfl, .nil⟩
    | @cons k c ks cs h _ ih =>
      have hd : c.dim = k.dim := by rw [fKind_dim, h.1]
      simp only [dims, List.map_cons, List.sum_cons] at hi
      obtain ⟨c', u, e0, l0, b0⟩ := (f_safe k).convert c (i.take k.dim) t h (by simp [hi])
      obtain ⟨cs', us, e1, l1, b1⟩ := ih (i.drop k.dim) (by simp [hi, dims])
      have e0 : c.convert _ t = _ := e0
      have e1 : multiConvert cs _ t = _ := e1
      exact ⟨_, _, by simp only [finiteMulti, multiConvert, hd, e0, e1]; rfl, by simp [l0, l1, dims], .cons b0 b1⟩
  idle_of_busy cs h := h.imp fun k c => (f_safe k).idle_of_busy c
  reset := by
    intro cs hc
    induction hc with
    | nil => exact ⟨.nil, rfl⟩
    | @cons k c ks cs h _ ih =>
      have h0 := (f_safe k).reset c h
      have l0 : c.reset.2.length = k.dim := h0.2
      have l1 : (multiReset cs).2.length = dims ks := ih.2
      exact ⟨.cons h0.1 ih.1, by simp only [finiteMulti, multiReset, List.length_append, l0, l1]; simp [dims]⟩

theorem cMulti_safe (ks : List ConvKind) :
    Safe contMulti (List.Forall₂ IsC ks) (List.Forall₂ IsC ks) (fun a => a.length = dims ks) (dims ks) False where
  set := by
    intro cs a t hc ha
    have : ∃ cs' ts, cMultiSetActionAux cs a t = (cs', .ok ts) ∧ List.Forall₂ IsC ks cs' := by
      induction hc generalizing a with
      | nil => exact ⟨_, _, rfl, .nil⟩
      | @cons k c ks cs h _ ih =>
        have hd : c.dim = k.dim := by rw [cKind_dim, h]
        simp only [dims, List.map_cons, List.sum_cons] at ha
        obtain ⟨c', ts, e1, b1, -⟩ := (c_safe k).set c (a.take k.dim) t h (by simp [ha])
        obtain ⟨cs', tss, e2, b2⟩ := ih (a.drop k.dim) (by simp [ha, dims])
        have e1 : c.setAction _ t = (c', .ok ts) := e1
        exact ⟨_, _, by simp only [cMultiSetActionAux, hd, e1, e2]; rfl, .cons b1 b2⟩
    obtain ⟨cs', ts, e, b⟩ := this
    exact ⟨_, _, by simp only [contMulti, cMultiSetAction, e]; rfl, b, False.elim⟩
  iSup := by
    intro cs i hc hi
    induction hc generalizing i with
    | nil => exact ⟨_, rfl⟩
    | @cons k c ks cs h _ ih =>
      have hd : c.dim = k.dim := by rw [cKind_dim, h]
      simp only [dims, List.map_cons, List.sum_cons] at hi
      obtain ⟨w0, e0⟩ := (c_safe k).iSup c (i.take k.dim) h (by simp [hi])
      obtain ⟨w1, e1⟩ := ih (i.drop k.dim) (by simp [hi, dims])
      have e0 : c.iSup _ = _ := e0
      have e1 : cMultiISup cs _ = _ := e1
      exact ⟨_, by simp only [contMulti, cMultiISup, hd, e0, e1]; rfl⟩
  convert := by
    intro cs i t hc hi
    have : ∃ u, cMultiConvert cs i t = .ok u ∧ u.length = dims ks := by
      induction hc generalizing i with
      | nil => exact ⟨_, rfl, rfl⟩
      | @cons k c ks cs h _ ih =>
        have hd : c.dim = k.dim := by rw [cKind_dim, h]
        simp only [dims, List.map_cons, List.sum_cons] at hi
        obtain ⟨c', u, e0, l0, -⟩ := (c_safe k).convert c (i.take k.dim) t h (by simp [hi])
        obtain ⟨us, e1, l1⟩ := ih (i.drop k.dim) (by simp [hi, dims])
        have e0 : c.convert _ t = _ := congrArg Prod.snd e0
        exact ⟨_, by simp only [cMultiConvert, hd, e0, e1]; rfl, by simp [l0, l1, dims]⟩
    obtain ⟨u, e, l⟩ := this
    exact ⟨_, _, by simp only [contMulti, e], l, hc⟩
  idle_of_busy cs h := h
  reset := by
    intro cs hc
    induction hc with
    | nil => exact ⟨.nil, rfl⟩
    | @cons k c ks cs h _ ih =>
      have h0 := (c_safe k).reset c h
      have l0 : c.reset.2.length = k.dim := h0.2
      have l1 : (cMultiReset cs).2.length = dims ks := ih.2
      exact ⟨.cons h0.1 ih.1, by simp only [contMulti, cMultiReset, List.length_append, l0, l1]; simp [dims]⟩

/-! ## The systems -/

/-- Statements about every converter with `n` outputs: elementary ones and multi converters, finite and continuous, with any sampling
and interlocking times. The actions: natural numbers below `action_space.n`, vectors with one entry per output. -/
def EveryConverter (n : ℕ) (claim : ∀ A C : Type, Power A C → (C → Prop) → (A → Prop) → Prop) : Prop :=
  (∀ k : ConvKind, k.dim = n → claim ℕ (FConv ℝ) finitePower (IsF k) fun a => a < k.actions) ∧
  (∀ k : ConvKind, k.dim = n → claim (List ℝ) (CConv ℝ) contPower (IsC k) fun a => a.length = n) ∧
  (∀ ks : List ConvKind, dims ks = n →
    claim (List ℕ) (List (FConv ℝ)) finiteMulti (List.Forall₂ IsF ks) (List.Forall₂ (fun k a => a < k.actions) ks)) ∧
  ∀ ks : List ConvKind, dims ks = n → claim (List ℝ) (List (CConv ℝ)) contMulti (List.Forall₂ IsC ks) fun a => a.length = n

theorem every_converter {n : ℕ} {claim : ∀ A C : Type, Power A C → (C → Prop) → (A → Prop) → Prop}
    (h : ∀ A C (pw : Power A C) idle busy legal, Safe pw idle busy legal n False → claim A C pw idle legal) :
    EveryConverter n claim :=
  ⟨fun k hk => h _ _ _ _ _ _ (hk ▸ f_safe k), fun k hk => h _ _ _ _ _ _ (hk ▸ c_safe k), fun ks hk => h _ _ _ _ _ _ (hk ▸ fMulti_safe ks),
    fun ks hk => h _ _ _ _ _ _ (hk ▸ cMulti_safe ks)⟩

/-- number of mechanical states and of motor states -/
def DcShape (m q : ℕ) (y : DcY ℝ) : Prop := y.mech.length = m ∧ y.motor.length = q

theorem mapM_getE {l : List ℝ} {idx : List ℕ} (h : ∀ i ∈ idx, i < l.length) :
    ∃ r, idx.mapM (getE l) = .ok r ∧ r.length = idx.length := by
  induction idx with
  | nil => exact ⟨[], rfl, rfl⟩
  | cons i idx ih =>
    obtain ⟨r, h1, h2⟩ := ih fun j hj => h j (List.mem_cons_of_mem _ hj)
    have hi : i < l.length := h i List.mem_cons_self
    refine ⟨l[i] :: r, ?_, by simp [h2]⟩
    rw [List.mapM_cons, h1]
    simp [getE, hi]
    rfl

theorem dc_fits {A : Type} {legal : A → Prop} {iIn : List ℝ → List ℝ} {m q n : ℕ} {idx : List ℕ} (hi : ∀ l : List ℝ, l.length = q → (iIn l).length = n)
    (hx : ∀ i ∈ idx, i < q) (tq : List ℝ → ℝ) :
    Fits (dcFrame (A := A) iIn tq idx n 1) (dcResetReport tq idx) (DcShape m q) n (m + 1 + idx.length + n + 1) legal legal False where
  iIn y hy := hi _ hy.2
  action y a ha := ha
  loopU _ y u hu := ⟨u, rfl⟩
  lastU y u hu := ⟨u, rfl⟩
  report y y' u us hy hy' hu hus := by
    obtain ⟨r, h1, h2⟩ := mapM_getE (l := y'.motor) (idx := idx) (by rw [hy'.2]; exact hx)
    refine ⟨y'.mech ++ [tq y'.motor] ++ r ++ u ++ us, ?_, by simp [hy'.1, h2, hu, hus]; omega⟩
    simp only [dcFrame, dcReport, h1, assign, hu, hus]
    rfl
  rep y u us hy hu hus := by
    obtain ⟨r, h1, h2⟩ := mapM_getE (l := y.motor) (idx := idx) (by rw [hy.2]; exact hx)
    refine ⟨y.mech ++ [tq y.motor] ++ r ++ u ++ us, ?_, by simp [hy.1, h2, hu, hus]; omega⟩
    simp only [dcResetReport, h1]
    rfl

/-- DC systems with `q` motor states, `n` input voltages, the given currents. -/
def DcAccepts (q n : ℕ) (iIn : List ℝ → List ℝ) (idx : List ℕ) (currents voltages : List String) : Prop :=
  EveryConverter n fun A C pw idle space => ∀ {S P : Type} (p : Parts ℝ (DcY ℝ) (List ℝ) A S C P) (mechNames : List String),
    Uses p pw → Shaped p (DcShape mechNames.length q) → ∀ (tq : List ℝ → ℝ) (tau : ℝ) (limits : List ℝ),
    limits.length = (dcNames mechNames currents voltages).length →
    AcceptsAll p (dcFrame iIn tq idx n 1) (dcResetReport tq idx) tau limits (dcNames mechNames currents voltages).length idle
      (DcShape mechNames.length q) space

theorem dc_accepts {q n : ℕ} {iIn : List ℝ → List ℝ} {idx : List ℕ} {currents voltages : List String}
    (hi : ∀ l : List ℝ, l.length = q → (iIn l).length = n) (hx : ∀ i ∈ idx, i < q) (hc : currents.length = idx.length)
    (hv : voltages.length = n) : DcAccepts q n iIn idx currents voltages := by
  refine every_converter fun A C pw idle busy legal hs => ?_
  intro S P p mechNames hu hp tq tau limits hl
  have e : (dcNames mechNames currents voltages).length = mechNames.length + 1 + idx.length + n + 1 := by
    simp [dcNames, hc, hv]; omega
  rw [e] at hl ⊢
  exact accepts_all hp hu hs (dc_fits hi hx tq) tau hl

/-- C109 for the DC motors, in the order externally excited, shunt, series, permanently excited. -/
theorem c109_dc :
    DcAccepts 2 2 id [0, 1] ["i_a", "i_e"] ["u_a", "u_e"] ∧
    DcAccepts 2 1 (fun l => [l.getD 0 0 + l.getD 1 0]) [0, 1] ["i_a", "i_e"] ["u"] ∧
    DcAccepts 1 1 id [0] ["i"] ["u"] := by
  refine ⟨dc_accepts (fun l h => h) (by simp) rfl rfl, dc_accepts (fun l h => rfl) (by simp) rfl rfl,
    dc_accepts (fun l h => h) (by simp) rfl rfl⟩

theorem three_of_length {u : List ℝ} (h : u.length = 3) : ∃ v, three u = .ok v := by
  obtain ⟨x, y, z, rfl⟩ := List.length_eq_three.1 h
  exact ⟨_, rfl⟩

/-- number of mechanical states -/
def SyncShape (m : ℕ) (y : SyncY) : Prop := y.mech.length = m
/-- number of mechanical states -/
def ImShape (m : ℕ) (y : ImY) : Prop := y.mech.length = m
/-- number of mechanical states -/
def EesmShape (m : ℕ) (y : EesmY) : Prop := y.mech.length = m

theorem sync_report (torque : SyncY → ℝ) {m : ℕ} (y : SyncY) {u us : List ℝ} (hu : u.length = 3) (hus : us.length = 1)
    (hy : SyncShape m y) : ∃ s, syncReset torque y u us = .ok s ∧ s.length = m + 13 := by
  obtain ⟨v, hv⟩ := three_of_length hu
  exact ⟨_, by simp only [syncReset, hv]; rfl, by simp [hu, hus, show y.mech.length = m from hy, l3, l2]⟩

theorem sync_fits {A : Type} {legal : A → Prop} {m : ℕ} (torque : SyncY → ℝ) :
    Fits (asIs (syncFrame torque false)) (syncReset torque) (SyncShape m) 3 (m + 13) legal legal False where
  iIn y hy := rfl
  action y a ha := ha
  loopU _ y u hu := by obtain ⟨v, hv⟩ := three_of_length hu; exact ⟨_, by simp only [asIs, syncFrame, hv]; rfl⟩
  lastU y u hu := by obtain ⟨v, hv⟩ := three_of_length hu; exact ⟨_, by simp only [asIs, syncFrame, hv]; rfl⟩
  report y y' u us hy hy' hu hus := by
    obtain ⟨v, hv⟩ := three_of_length hu
    exact ⟨_, by simp only [asIs, syncFrame, hv]; rfl, by simp [hu, hus, show y'.mech.length = m from hy', l3, l2]⟩
  rep y u us hy hu hus := sync_report torque y hu hus hy

theorem sync_dq_fits {m : ℕ} (torque : SyncY → ℝ) :
    Fits (syncFrame torque true) (syncReset torque) (SyncShape m) 3 (m + 13) (fun a => a.length = 2) (fun a => a.length = 3) False where
  iIn y hy := rfl
  action y a ha := by obtain ⟨d, q, rfl⟩ := List.length_eq_two.1 ha; rfl
  loopU _ y u hu := by obtain ⟨v, hv⟩ := three_of_length hu; exact ⟨_, by simp only [syncFrame, hv]; rfl⟩
  lastU y u hu := by obtain ⟨v, hv⟩ := three_of_length hu; exact ⟨_, by simp only [syncFrame, hv]; rfl⟩
  report y y' u us hy hy' hu hus := by
    obtain ⟨v, hv⟩ := three_of_length hu
    exact ⟨_, by simp only [syncFrame, hv]; rfl, by simp [hu, hus, show y'.mech.length = m from hy', l3, l2]⟩
  rep y u us hy hu hus := sync_report torque y hu hus hy

/-- C109 for PMSM and SynRM systems: actions for the phases with every converter with three outputs, dq actions with continuous ones. -/
theorem c109_sync (mechNames : List String) (torque : SyncY → ℝ) (tau : ℝ) (limits : List ℝ)
    (hl : limits.length = (syncNames mechNames).length) :
    (EveryConverter 3 fun A C pw idle space => ∀ {S P : Type} (p : Parts ℝ SyncY (Fin 2 → ℝ) A S C P),
      Uses p pw → Shaped p (SyncShape mechNames.length) →
      AcceptsAll p (asIs (syncFrame torque false)) (syncReset torque) tau limits (syncNames mechNames).length idle
        (SyncShape mechNames.length) space) ∧
    ∀ {S P : Type} (p : Parts ℝ SyncY (Fin 2 → ℝ) (List ℝ) S (CConv ℝ) P),
      Uses p contPower → Shaped p (SyncShape mechNames.length) →
      AcceptsAll p (syncFrame torque true) (syncReset torque) tau limits (syncNames mechNames).length (IsC .b6)
        (SyncShape mechNames.length) fun a => a.length = 2 := by
  have e : (syncNames mechNames).length = mechNames.length + 13 := by simp [syncNames]
  rw [e] at hl ⊢
  refine ⟨every_converter fun A C pw idle busy legal hs => ?_, ?_⟩
  · intro S P p hu hp
    exact accepts_all hp hu hs (sync_fits torque) tau hl
  · intro S P p hu hp
    exact accepts_all hp hu (c_safe .b6) (sync_dq_fits torque) tau hl

theorem scim_report (torque : ImY → ℝ) {m : ℕ} (y : ImY) {u us : List ℝ} (hu : u.length = 3) (hus : us.length = 1)
    (hy : ImShape m y) : ∃ s, scimReset torque y u us = .ok s ∧ s.length = m + 13 := by
  obtain ⟨v, hv⟩ := three_of_length hu
  exact ⟨_, by simp only [scimReset, hv]; rfl, by simp [hu, hus, show y.mech.length = m from hy, l3, l2]⟩

theorem scim_fits {A : Type} {legal : A → Prop} {m : ℕ} (torque : ImY → ℝ) :
    Fits (asIs (scimFrame torque false)) (scimReset torque) (ImShape m) 3 (m + 13) legal legal False where
  iIn y hy := rfl
  action y a ha := ha
  loopU _ y u hu := by obtain ⟨v, hv⟩ := three_of_length hu; exact ⟨_, by simp only [asIs, scimFrame, hv]; rfl⟩
  lastU y u hu := by obtain ⟨v, hv⟩ := three_of_length hu; exact ⟨_, by simp only [asIs, scimFrame, hv]; rfl⟩
  report y y' u us hy hy' hu hus := by
    obtain ⟨v, hv⟩ := three_of_length hu
    exact ⟨_, by simp only [asIs, scimFrame, hv]; rfl, by simp [hu, hus, show y'.mech.length = m from hy', l3, l2]⟩
  rep y u us hy hu hus := scim_report torque y hu hus hy

theorem scim_dq_fits {m : ℕ} (torque : ImY → ℝ) :
    Fits (scimFrame torque true) (scimReset torque) (ImShape m) 3 (m + 13) (fun a => a.length = 2) (fun a => a.length = 3) False where
  iIn y hy := rfl
  action y a ha := by obtain ⟨d, q, rfl⟩ := List.length_eq_two.1 ha; rfl
  loopU _ y u hu := by obtain ⟨v, hv⟩ := three_of_length hu; exact ⟨_, by simp only [scimFrame, hv]; rfl⟩
  lastU y u hu := by obtain ⟨v, hv⟩ := three_of_length hu; exact ⟨_, by simp only [scimFrame, hv]; rfl⟩
  report y y' u us hy hy' hu hus := by
    obtain ⟨v, hv⟩ := three_of_length hu
    exact ⟨_, by simp only [scimFrame, hv]; rfl, by simp [hu, hus, show y'.mech.length = m from hy', l3, l2]⟩
  rep y u us hy hu hus := scim_report torque y hu hus hy

/-- C109 for squirrel cage motors. -/
theorem c109_scim (mechNames : List String) (torque : ImY → ℝ) (tau : ℝ) (limits : List ℝ)
    (hl : limits.length = (scimNames mechNames).length) :
    (EveryConverter 3 fun A C pw idle space => ∀ {S P : Type} (p : Parts ℝ ImY (Fin 2 → ℝ) A S C P),
      Uses p pw → Shaped p (ImShape mechNames.length) →
      AcceptsAll p (asIs (scimFrame torque false)) (scimReset torque) tau limits (scimNames mechNames).length idle
        (ImShape mechNames.length) space) ∧
    ∀ {S P : Type} (p : Parts ℝ ImY (Fin 2 → ℝ) (List ℝ) S (CConv ℝ) P),
      Uses p contPower → Shaped p (ImShape mechNames.length) →
      AcceptsAll p (scimFrame torque true) (scimReset torque) tau limits (scimNames mechNames).length (IsC .b6)
        (ImShape mechNames.length) fun a => a.length = 2 := by
  have e : (scimNames mechNames).length = mechNames.length + 13 := by simp [scimNames]
  rw [e] at hl ⊢
  refine ⟨every_converter fun A C pw idle busy legal hs => ?_, ?_⟩
  · intro S P p hu hp
    exact accepts_all hp hu hs (scim_fits torque) tau hl
  · intro S P p hu hp
    exact accepts_all hp hu (c_safe .b6) (scim_dq_fits torque) tau hl

theorem threes_of_length {u : List ℝ} (h : u.length = 6) :
    (∃ v, three ((u.drop 0).take 3) = .ok v) ∧ ∃ v, three ((u.drop 3).take 3) = .ok v :=
  ⟨three_of_length (by simp [h]), three_of_length (by simp [h])⟩

theorem dfim_fits {A : Type} {legal : A → Prop} {m : ℕ} (lm lsigr : ℝ) (torque : ImY → ℝ) :
    Fits (asIs (dfimFrame lm lsigr torque)) (dfimReset lm lsigr torque) (ImShape m) 6 (m + 23) legal legal False where
  iIn y hy := rfl
  action y a ha := ha
  loopU _ y u hu := by
    obtain ⟨⟨v, hv⟩, w, hw⟩ := threes_of_length hu
    exact ⟨_, by simp only [asIs, dfimFrame, dfimU, hv, hw]; rfl⟩
  lastU y u hu := by
    obtain ⟨⟨v, hv⟩, w, hw⟩ := threes_of_length hu
    exact ⟨_, by simp only [asIs, dfimFrame, dfimU, hv, hw]; rfl⟩
  report y y' u us hy hy' hu hus := by
    obtain ⟨⟨v, hv⟩, w, hw⟩ := threes_of_length hu
    exact ⟨_, by simp only [asIs, dfimFrame, hv, hw]; rfl, by simp [hus, show y'.mech.length = m from hy', l3, l2]⟩
  rep y u us hy hu hus := by
    obtain ⟨⟨v, hv⟩, w, hw⟩ := threes_of_length hu
    exact ⟨_, by simp only [dfimReset, hv, hw]; rfl, by simp [hus, show y.mech.length = m from hy, l3, l2]⟩

/-- C109 for doubly fed motors. -/
theorem c109_dfim (mechNames : List String) (lm lsigr : ℝ) (torque : ImY → ℝ) (tau : ℝ) (limits : List ℝ)
    (hl : limits.length = (dfimNames mechNames).length) :
    EveryConverter 6 fun A C pw idle space => ∀ {S P : Type} (p : Parts ℝ ImY ((Fin 2 → ℝ) × (Fin 2 → ℝ)) A S C P),
      Uses p pw → Shaped p (ImShape mechNames.length) →
      AcceptsAll p (asIs (dfimFrame lm lsigr torque)) (dfimReset lm lsigr torque) tau limits (dfimNames mechNames).length idle
        (ImShape mechNames.length) space := by
  have e : (dfimNames mechNames).length = mechNames.length + 23 := by simp [dfimNames]
  rw [e] at hl ⊢
  refine every_converter fun A C pw idle busy legal hs => ?_
  intro S P p hu hp
  exact accepts_all hp hu hs (dfim_fits lm lsigr torque) tau hl

/-! ## The externally excited synchronous motor -/

/-- sampling and interlocking times of the half bridges -/
def fTimes : FConv ℝ → List (ℝ × ℝ)
  | .one c => [(c.tau, 0)]
  | .two c => [(c.tau, c.il)]
  | .four c => [(c.sub0.tau, c.sub0.il), (c.sub1.tau, c.sub1.il)]
  | .b6 c => [(c.s0.tau, c.s0.il), (c.s1.tau, c.s1.il), (c.s2.tau, c.s2.il)]

/-- sampling times of the half bridges -/
def cTimes : CConv ℝ → List ℝ
  | .one c => [c.tau]
  | .two c => [c.tau]
  | .four c => [c.sub0.tau, c.sub1.tau]
  | .b6 c => [c.s0.tau, c.s1.tau, c.s2.tau]

/-- Same sampling time everywhere, no interlocking times. -/
def FTogether (tau : ℝ) (cs : List (FConv ℝ)) : Prop := ∀ x ∈ cs.flatMap fTimes, x = (tau, 0)
/-- Same sampling time everywhere. -/
def CTogether (tau : ℝ) (cs : List (CConv ℝ)) : Prop := ∀ x ∈ cs.flatMap cTimes, x = tau

theorem sortedSet_const {l : List ℝ} {x : ℝ} (h : ∀ y ∈ l, y = x) : (sortedSet l).dropLast = [] := by
  have : (sortedSet l).length ≤ 1 := by
    unfold sortedSet
    rw [Finset.length_sort]
    refine Finset.card_le_one.2 fun a ha b hb => ?_
    rw [h a (List.mem_toFinset.1 ha), h b (List.mem_toFinset.1 hb)]
  rw [← List.length_eq_zero_iff, List.length_dropLast]
  omega

theorem sortedSet_two {l : List ℝ} {x y : ℝ} (hx : x ∈ l) (hy : y ∈ l) (h : x ≠ y) : (sortedSet l).dropLast ≠ [] := by
  have : 1 < (sortedSet l).length := by
    unfold sortedSet
    rw [Finset.length_sort, Finset.one_lt_card]
    exact ⟨x, List.mem_toFinset.2 hx, y, List.mem_toFinset.2 hy, h⟩
  rw [Ne, ← List.length_eq_zero_iff, List.length_dropLast]
  omega

theorem mem_sortedSet {l : List ℝ} {x : ℝ} : x ∈ sortedSet l ↔ x ∈ l := by simp [sortedSet]

theorem two_keeps_set (c : TwoQC ℝ) (a : ℕ) (t : ℝ) : (c.setAction a t).1.tau = c.tau ∧ (c.setAction a t).1.il = c.il := by
  unfold TwoQC.setAction
  split_ifs <;> exact ⟨rfl, rfl⟩

theorem two_keeps_convert (c : TwoQC ℝ) (i : List ℝ) (t : ℝ) : (c.convert i t).1.tau = c.tau ∧ (c.convert i t).1.il = c.il := by
  unfold TwoQC.convert
  generalize (if t - c.tau / 1000 > c.start + c.il then c.pattern.getLast? else c.pattern.head?) = o
  cases o <;> exact ⟨rfl, rfl⟩

theorem fTimes_set (c : FConv ℝ) (a : ℕ) (t : ℝ) : fTimes (c.setAction a t).1 = fTimes c := by
  rcases c with c | c | c | c
  · simp only [FConv.setAction, OneQC.setAction]
    split_ifs <;> rfl
  · simp [FConv.setAction, fTimes, two_keeps_set]
  · simp only [FConv.setAction, FourQC.setAction]
    split_ifs
    · split <;> simp [fTimes, two_keeps_set]
    · rfl
  · simp only [FConv.setAction, B6.setAction]
    split_ifs
    · split
      · simp [fTimes, two_keeps_set]
      · split <;> simp [fTimes, two_keeps_set]
    · rfl

theorem fTimes_convert (c : FConv ℝ) (i : List ℝ) (t : ℝ) : fTimes (c.convert i t).1 = fTimes c := by
  rcases c with c | c | c | c
  · simp only [FConv.convert, OneQC.convert]
    split <;> rfl
  · simp [FConv.convert, fTimes, two_keeps_convert]
  · simp only [FConv.convert, FourQC.convert]
    split <;> simp [fTimes, two_keeps_convert]
  · simp only [FConv.convert, B6.convert]
    split
    · rfl
    · split
      · split <;> simp [fTimes, two_keeps_convert]
      · simp [fTimes, two_keeps_convert]
      · simp [fTimes, two_keeps_convert]

theorem fTimes_reset (c : FConv ℝ) : fTimes c.reset.1 = fTimes c := by cases c <;> rfl

theorem cTimes_set (c : CConv ℝ) (a : List ℝ) (t : ℝ) : cTimes (c.setAction a t).1 = cTimes c := by
  rcases c with c | c | c | c
  · simp only [CConv.setAction, COne.setAction]
    split <;> rfl
  · simp only [CConv.setAction, CTwo.setAction]
    split <;> rfl
  · simp only [CConv.setAction, CFour.setAction]
    split <;> rfl
  · simp only [CConv.setAction, CB6.setAction]
    split <;> rfl

theorem cTimes_reset (c : CConv ℝ) : cTimes c.reset.1 = cTimes c := by cases c <;> rfl

theorem multiTimes_set (cs : List (FConv ℝ)) (as : List ℕ) (t : ℝ) :
    (multiSetActionAux cs as t).1.flatMap fTimes = cs.flatMap fTimes := by
  induction cs generalizing as with
  | nil => rfl
  | cons c cs ih =>
    cases as with
    | nil => rfl
    | cons a as =>
      simp only [multiSetActionAux]
      split <;> simp [fTimes_set, ih]

theorem multiTimes_convert (cs : List (FConv ℝ)) (i : List ℝ) (t : ℝ) :
    (multiConvert cs i t).1.flatMap fTimes = cs.flatMap fTimes := by
  induction cs generalizing i with
  | nil => rfl
  | cons c cs ih =>
    simp only [multiConvert]
    split <;> simp [fTimes_convert, ih]

theorem multiTimes_reset (cs : List (FConv ℝ)) : (multiReset cs).1.flatMap fTimes = cs.flatMap fTimes := by
  induction cs with
  | nil => rfl
  | cons c cs ih => simp [multiReset, fTimes_reset, ih]

theorem cMultiTimes_set (cs : List (CConv ℝ)) (a : List ℝ) (t : ℝ) :
    (cMultiSetActionAux cs a t).1.flatMap cTimes = cs.flatMap cTimes := by
  induction cs generalizing a with
  | nil => rfl
  | cons c cs ih =>
    simp only [cMultiSetActionAux]
    split <;> simp [cTimes_set, ih]

theorem cMultiTimes_reset (cs : List (CConv ℝ)) : (cMultiReset cs).1.flatMap cTimes = cs.flatMap cTimes := by
  induction cs with
  | nil => rfl
  | cons c cs ih => simp [cMultiReset, cTimes_reset, ih]

/-- the switching times of a continuous converter -/
theorem c_switches {c c' : CConv ℝ} {a : List ℝ} {t : ℝ} {ts : List ℝ} (h : c.setAction a t = (c', .ok ts)) (x : ℝ) :
    x ∈ ts ↔ ∃ d ∈ cTimes c, x = t + d := by
  rcases c with c | c | c | c
  all_goals
    simp only [CConv.setAction, COne.setAction, CTwo.setAction, CFour.setAction, CB6.setAction] at h
    split at h <;> simp only [Prod.map_apply, id, Prod.mk.injEq, reduceCtorEq, and_false, Except.ok.injEq] at h
    rw [← h.2]
    simp [cTimes, mem_sortedSet]

theorem cMulti_switches {cs cs' : List (CConv ℝ)} {a : List ℝ} {t : ℝ} {ts : List ℝ}
    (h : cMultiSetActionAux cs a t = (cs', .ok ts)) (x : ℝ) : x ∈ ts ↔ ∃ d ∈ cs.flatMap cTimes, x = t + d := by
  induction cs generalizing a cs' ts with
  | nil => simp only [cMultiSetActionAux, Prod.mk.injEq, Except.ok.injEq] at h; simp [← h.2]
  | cons c cs ih =>
    simp only [cMultiSetActionAux] at h
    cases e0 : c.setAction (a.take c.dim) t with
    | mk c1 r0 =>
      rw [e0] at h
      cases r0 with
      | error e => simp at h
      | ok t0 =>
        cases e1 : cMultiSetActionAux cs (a.drop c.dim) t with
        | mk cs1 r1 =>
          rw [e1] at h
          cases r1 with
          | error e => simp at h
          | ok t1 =>
            simp only [Prod.mk.injEq, Except.ok.injEq] at h
            rw [← h.2, List.mem_append, c_switches e0, ih e1]
            simp only [List.flatMap_cons, List.mem_append]
            constructor
            · rintro (⟨d, h1, h2⟩ | ⟨d, h1, h2⟩)
              · exact ⟨d, .inl h1, h2⟩
              · exact ⟨d, .inr h1, h2⟩
            · rintro ⟨d, h1 | h1, h2⟩
              · exact .inl ⟨d, h1, h2⟩
              · exact .inr ⟨d, h1, h2⟩

theorem two_switches {c c' : TwoQC ℝ} {a : ℕ} {t tau : ℝ} {ts : List ℝ} (h : c.setAction a t = (c', .ok ts)) (h0 : c.tau = tau)
    (h1 : c.il = 0) : ∀ x ∈ ts, x = t + tau := by
  subst h0
  unfold TwoQC.setAction at h
  split_ifs at h with h2 h3
  · simp only [Prod.mk.injEq, Except.ok.injEq] at h
    simp [← h.2]
  · exact absurd (.inr (.inr (.inr h1))) h3
  · simp at h

theorem f_switches {c c' : FConv ℝ} {a : ℕ} {t tau : ℝ} {ts : List ℝ} (h : c.setAction a t = (c', .ok ts))
    (hc : ∀ x ∈ fTimes c, x = (tau, 0)) : ∀ x ∈ ts, x = t + tau := by
  rcases c with c | c | c | c
  · simp only [FConv.setAction, OneQC.setAction] at h
    simp only [fTimes, List.mem_singleton, forall_eq, Prod.mk.injEq, and_true] at hc
    split_ifs at h <;> simp only [Prod.map_apply, id, Prod.mk.injEq, reduceCtorEq, and_false, Except.ok.injEq] at h
    simp [← h.2, hc]
  · simp only [fTimes, List.mem_singleton, forall_eq, Prod.mk.injEq] at hc
    cases e : c.setAction a t with
    | mk c1 r =>
      simp only [FConv.setAction, e, Prod.map_apply, id, Prod.mk.injEq] at h
      rw [h.2] at e
      exact two_switches e hc.1 hc.2
  · simp only [fTimes, List.mem_cons, List.not_mem_nil, or_false, forall_eq_or_imp, forall_eq, Prod.mk.injEq] at hc
    simp only [FConv.setAction, FourQC.setAction] at h
    split_ifs at h with ha
    · cases e0 : c.sub0.setAction (fourAction0 a) t with
      | mk c0 r0 =>
        cases e1 : c.sub1.setAction (fourAction1 a) t with
        | mk c1 r1 =>
          cases r0 with
          | error e => simp [e0] at h
          | ok t0 =>
            cases r1 with
            | error e => simp [e0, e1] at h
            | ok t1 =>
              simp only [e0, e1, Prod.map_apply, id, Prod.mk.injEq, Except.ok.injEq] at h
              rw [← h.2]
              intro x hx
              rw [mem_sortedSet, List.mem_append] at hx
              rcases hx with hx | hx
              · exact two_switches e0 hc.1.1 hc.1.2 x hx
              · exact two_switches e1 hc.2.1 hc.2.2 x hx
    · simp at h
  · simp only [fTimes, List.mem_cons, List.not_mem_nil, or_false, forall_eq_or_imp, forall_eq, Prod.mk.injEq] at hc
    simp only [FConv.setAction, B6.setAction] at h
    split_ifs at h with ha
    · cases e0 : c.s0.setAction (b6Sub a).1 t with
      | mk c0 r0 =>
        cases e1 : c.s1.setAction (b6Sub a).2.1 t with
        | mk c1 r1 =>
          cases e2 : c.s2.setAction (b6Sub a).2.2 t with
          | mk c2 r2 =>
            cases r0 with
            | error e => simp [e0] at h
            | ok t0 =>
              cases r1 with
              | error e => simp [e0, e1] at h
              | ok t1 =>
                cases r2 with
                | error e => simp [e0, e1, e2] at h
                | ok t2 =>
                  simp only [e0, e1, e2, Prod.map_apply, id, Prod.mk.injEq, Except.ok.injEq] at h
                  rw [← h.2]
                  intro x hx
                  rw [mem_sortedSet, List.mem_append, List.mem_append] at hx
                  rcases hx with (hx | hx) | hx
                  · exact two_switches e0 hc.1.1 hc.1.2 x hx
                  · exact two_switches e1 hc.2.1.1 hc.2.1.2 x hx
                  · exact two_switches e2 hc.2.2.1 hc.2.2.2 x hx
    · simp at h

theorem fMulti_switches {cs cs' : List (FConv ℝ)} {as : List ℕ} {t tau : ℝ} {ts : List ℝ}
    (h : multiSetActionAux cs as t = (cs', .ok ts)) (hc : FTogether tau cs) : ∀ x ∈ ts, x = t + tau := by
  induction cs generalizing as cs' ts with
  | nil => simp only [multiSetActionAux, Prod.mk.injEq, Except.ok.injEq] at h; simp [← h.2]
  | cons c cs ih =>
    cases as with
    | nil => simp only [multiSetActionAux, Prod.mk.injEq, Except.ok.injEq] at h; simp [← h.2]
    | cons a as =>
      simp only [multiSetActionAux] at h
      have hc0 : ∀ x ∈ fTimes c, x = (tau, 0) := fun x hx => hc x (by simp [hx])
      have hc1 : FTogether tau cs := fun x hx => hc x (by rw [List.flatMap_cons, List.mem_append]; exact .inr hx)
      cases e0 : c.setAction a t with
      | mk c1 r0 =>
        rw [e0] at h
        cases r0 with
        | error e => simp at h
        | ok t0 =>
          cases e1 : multiSetActionAux cs as t with
          | mk cs1 r1 =>
            rw [e1] at h
            cases r1 with
            | error e => simp at h
            | ok t1 =>
              simp only [Prod.mk.injEq, Except.ok.injEq] at h
              rw [← h.2]
              intro x hx
              rw [List.mem_append] at hx
              rcases hx with hx | hx
              · exact f_switches e0 hc0 x hx
              · exact ih e1 hc1 x hx

theorem fMulti_once (ks : List ConvKind) (tau : ℝ) :
    Safe finiteMulti (fun cs => List.Forall₂ IsF ks cs ∧ FTogether tau cs) (fun cs => List.Forall₂ BusyF ks cs ∧ FTogether tau cs)
      (List.Forall₂ (fun k a => a < k.actions) ks) (dims ks) True where
  set cs as t hc ha := by
    obtain ⟨cs', ts, e, b, -⟩ := (fMulti_safe ks).set cs as t hc.1 ha
    refine ⟨cs', ts, e, ⟨b, ?_⟩, fun _ => ?_⟩
    · have : cs' = (multiSetActionAux cs as t).1 := (congrArg Prod.fst e).symm
      unfold FTogether
      rw [this, multiTimes_set]
      exact hc.2
    · cases e1 : multiSetActionAux cs as t with
      | mk cs1 r =>
        simp only [finiteMulti, multiSetAction, e1, Prod.mk.injEq] at e
        cases r with
        | error e' => simp at e
        | ok ts' =>
          simp only [Except.ok.injEq] at e
          rw [← e.2]
          exact sortedSet_const (fMulti_switches e1 hc.2)
  iSup cs i hc hi := (fMulti_safe ks).iSup cs i hc.1 hi
  convert cs i t hc hi := by
    obtain ⟨cs', u, e, l, b⟩ := (fMulti_safe ks).convert cs i t hc.1 hi
    refine ⟨cs', u, e, l, b, ?_⟩
    have : cs' = (multiConvert cs i t).1 := (congrArg Prod.fst e).symm
    unfold FTogether
    rw [this, multiTimes_convert]
    exact hc.2
  idle_of_busy cs h := ⟨(fMulti_safe ks).idle_of_busy cs h.1, h.2⟩
  reset cs h := by
    have h0 := (fMulti_safe ks).reset cs h.1
    refine ⟨⟨h0.1, ?_⟩, h0.2⟩
    unfold FTogether
    show ∀ x ∈ (multiReset cs).1.flatMap fTimes, _
    rw [multiTimes_reset]
    exact h.2

theorem cMulti_once (ks : List ConvKind) (tau : ℝ) :
    Safe contMulti (fun cs => List.Forall₂ IsC ks cs ∧ CTogether tau cs) (fun cs => List.Forall₂ IsC ks cs ∧ CTogether tau cs)
      (fun a => a.length = dims ks) (dims ks) True where
  set cs as t hc ha := by
    obtain ⟨cs', ts, e, b, -⟩ := (cMulti_safe ks).set cs as t hc.1 ha
    refine ⟨cs', ts, e, ⟨b, ?_⟩, fun _ => ?_⟩
    · have : cs' = (cMultiSetActionAux cs as t).1 := (congrArg Prod.fst e).symm
      unfold CTogether
      rw [this, cMultiTimes_set]
      exact hc.2
    · cases e1 : cMultiSetActionAux cs as t with
      | mk cs1 r =>
        simp only [contMulti, cMultiSetAction, e1, Prod.mk.injEq] at e
        cases r with
        | error e' => simp at e
        | ok ts' =>
          simp only [Except.ok.injEq] at e
          rw [← e.2]
          refine sortedSet_const (x := t + tau) fun y hy => ?_
          obtain ⟨d, h1, h2⟩ := (cMulti_switches e1 y).1 hy
          rw [h2, hc.2 d h1]
  iSup cs i hc hi := (cMulti_safe ks).iSup cs i hc.1 hi
  convert cs i t hc hi := by
    obtain ⟨cs', u, e, l, b⟩ := (cMulti_safe ks).convert cs i t hc.1 hi
    exact ⟨cs', u, e, l, b, by have : cs' = cs := (congrArg Prod.fst e).symm; rw [this]; exact hc.2⟩
  idle_of_busy cs h := h
  reset cs h := by
    have h0 := (cMulti_safe ks).reset cs h.1
    refine ⟨⟨h0.1, ?_⟩, h0.2⟩
    unfold CTogether
    show ∀ x ∈ (cMultiReset cs).1.flatMap cTimes, _
    rw [cMultiTimes_reset]
    exact h.2

theorem eesm_fits {A : Type} {legal : A → Prop} {m : ℕ} (torque : EesmY → ℝ) :
    Fits (asIs (eesmFrame torque)) (eesmReset torque) (EesmShape m) 4 (m + 15) legal legal True where
  iIn y hy := rfl
  action y a ha := ha
  loopU h := absurd trivial h
  lastU y u hu := by
    obtain ⟨v, hv⟩ := three_of_length (u := u.take 3) (by simp [hu])
    exact ⟨_, by simp only [asIs, eesmFrame, hv]; rfl⟩
  report y y' u us hy hy' hu hus := by
    obtain ⟨v, hv⟩ := three_of_length (u := u.take 3) (by simp [hu])
    exact ⟨_, by simp only [asIs, eesmFrame, hv]; rfl, by simp [hu, hus, show y'.mech.length = m from hy', l3, l2]⟩
  rep y u us hy hu hus := by
    obtain ⟨v, hv⟩ := three_of_length (u := u.take 3) (by simp [hu])
    exact ⟨_, by simp only [eesmReset, hv]; rfl, by simp [hu, hus, show y.mech.length = m from hy, l3, l2]⟩

/-- C109 for externally excited synchronous motors, if all half bridges have the same sampling time and, in finite converters, no
interlocking time. Missing for C109: other sampling and interlocking times. -/
theorem c109_eesm_partial (mechNames : List String) (torque : EesmY → ℝ) (tau : ℝ) (limits : List ℝ)
    (hl : limits.length = (eesmNames mechNames).length) (ks : List ConvKind) (hk : dims ks = 4) (d : ℝ) :
    (∀ {S P : Type} (p : Parts ℝ EesmY (List ℝ) (List ℕ) S (List (FConv ℝ)) P),
      Uses p finiteMulti → Shaped p (EesmShape mechNames.length) →
      AcceptsAll p (asIs (eesmFrame torque)) (eesmReset torque) tau limits (eesmNames mechNames).length
        (fun cs => List.Forall₂ IsF ks cs ∧ FTogether d cs) (EesmShape mechNames.length)
        (List.Forall₂ (fun k a => a < k.actions) ks)) ∧
    ∀ {S P : Type} (p : Parts ℝ EesmY (List ℝ) (List ℝ) S (List (CConv ℝ)) P),
      Uses p contMulti → Shaped p (EesmShape mechNames.length) →
      AcceptsAll p (asIs (eesmFrame torque)) (eesmReset torque) tau limits (eesmNames mechNames).length
        (fun cs => List.Forall₂ IsC ks cs ∧ CTogether d cs) (EesmShape mechNames.length) fun a => a.length = 4 := by
  have e : (eesmNames mechNames).length = mechNames.length + 15 := by simp [eesmNames]
  rw [e] at hl ⊢
  refine ⟨?_, ?_⟩
  · intro S P p hu hp
    exact accepts_all hp hu (hk ▸ fMulti_once ks d) (eesm_fits torque) tau hl
  · intro S P p hu hp
    exact accepts_all hp hu (hk ▸ cMulti_once ks d) (eesm_fits torque) tau hl

theorem eesm_raises {A S C P : Type} {p : Parts ℝ EesmY (List ℝ) A S C P} {pw : Power A C} {idle busy : C → Prop} {legal : A → Prop}
    {once : Prop} (hu : Uses p pw) (hs : Safe pw idle busy legal 4 once) (torque : EesmY → ℝ) (tau : ℝ) (limits : List ℝ)
    (st : St ℝ S C P) (a : A) {c' : C} {ts : List ℝ} (hset : pw.setAction st.conv a st.t = (c', .ok ts)) (hb : busy c')
    (hts : ts.dropLast ≠ []) : (simulate p (asIs (eesmFrame torque)) tau limits st a).2 = .error .value := by
  obtain ⟨u1, u2, u3, -⟩ := hu
  obtain ⟨t, ts', e⟩ := List.exists_cons_of_ne_nil hts
  have hpc : (piece p (asIs (eesmFrame torque)) (asIs (A := A) (eesmFrame torque)).loopU { st with conv := c' } t).2
      = .error .value := by
    obtain ⟨w, hw⟩ := hs.iSup c' ((eesmFrame torque).iIn (p.solverY st.solver)) hb rfl
    obtain ⟨c'', u, hcv, -, -⟩ := hs.convert c' ((eesmFrame torque).iIn (p.solverY st.solver)) (p.solverT st.solver) hb rfl
    have hl : ∀ y l, (eesmFrame torque).loopU y l = .error .value := by
      intro y l
      simp only [eesmFrame, three_take2]
      rfl
    unfold piece
    simp only [u2, u3, asIs, hw, hcv, hl]
  unfold simulate
  have ha : (asIs (eesmFrame torque)).action (p.solverY st.solver) a = a := rfl
  simp only [ha, u1, hset, e, pieces]
  simp [Call.bind, hpc]

/-- Continuous converters: as soon as two half bridges have different sampling times, no action of the action space is accepted in any
step. -/
theorem c109_eesm_times_violated {S P : Type} (p : Parts ℝ EesmY (List ℝ) (List ℝ) S (List (CConv ℝ)) P) (hu : Uses p contMulti)
    (torque : EesmY → ℝ) (tau : ℝ) (limits : List ℝ) (ks : List ConvKind) (hk : dims ks = 4) (st : St ℝ S (List (CConv ℝ)) P)
    (hc : List.Forall₂ IsC ks st.conv) (d e : ℝ) (hd : d ∈ st.conv.flatMap cTimes) (he : e ∈ st.conv.flatMap cTimes) (hde : d ≠ e)
    (a : List ℝ) (ha : a.length = 4) :
    (simulate p (asIs (eesmFrame torque)) tau limits st a).2 = .error .value := by
  have hs := cMulti_safe ks
  obtain ⟨cs', ts, h1, h2, -⟩ := hs.set st.conv a st.t hc (by rw [ha, hk])
  refine eesm_raises hu (hk ▸ hs) torque tau limits st a h1 h2 ?_
  cases e1 : cMultiSetActionAux st.conv a st.t with
  | mk cs1 r =>
    simp only [contMulti, cMultiSetAction, e1, Prod.mk.injEq] at h1
    cases r with
    | error e' => simp at h1
    | ok ts' =>
      simp only [Except.ok.injEq] at h1
      rw [← h1.2]
      exact sortedSet_two (x := st.t + d) (y := st.t + e) ((cMulti_switches e1 _).2 ⟨d, hd, rfl⟩)
        ((cMulti_switches e1 _).2 ⟨e, he, rfl⟩) (by simpa using hde)

/-- That happens with the default sampling time of the converters: a two quadrant converter takes over the sampling time of the
system, the bridge beside it does not. -/
theorem c109_eesm_system_tau_violated {S P : Type} (p : Parts ℝ EesmY (List ℝ) (List ℝ) S (List (CConv ℝ)) P)
    (hu : Uses p contMulti) (torque : EesmY → ℝ) (d tau il il' : ℝ) (hd : d ≠ tau) (limits : List ℝ)
    (st : St ℝ S (List (CConv ℝ)) P) (hc : st.conv = cMultiSetTau [.b6 (CB6.new d il), .two (CTwo.new d il')] tau) (a : List ℝ)
    (ha : a.length = 4) : (simulate p (asIs (eesmFrame torque)) tau limits st a).2 = .error .value :=
  c109_eesm_times_violated p hu torque tau limits [.b6, .two] rfl st (by rw [hc]; exact .cons rfl (.cons rfl .nil)) d tau
    (by rw [hc]; simp [cMultiSetTau, CConv.setTau, cTimes, CB6.new, CTwo.new])
    (by rw [hc]; simp [cMultiSetTau, CConv.setTau, cTimes, CB6.new, CTwo.new]) hd a ha

/-- Finite converters with interlocking time: changing the first phase over from low to high raises. -/
theorem c109_eesm_interlock_violated {S P : Type} (p : Parts ℝ EesmY (List ℝ) (List ℕ) S (List (FConv ℝ)) P)
    (hu : Uses p finiteMulti) (torque : EesmY → ℝ) (tau : ℝ) (limits : List ℝ) (k : ConvKind) (hk : k.dim = 1)
    (st : St ℝ S (List (FConv ℝ)) P) (b : B6 ℝ) (c : FConv ℝ) (hc : st.conv = [.b6 b, c]) (hb : Switched (.b6 b)) (hck : IsF k c)
    (hlow : b.s0.state = 2) (hil : b.s0.il ≠ 0) (hne : b.s0.il ≠ b.s0.tau) (a0 a1 : ℕ) (h4 : 4 ≤ a0) (h8 : a0 < 8)
    (h1 : a1 < k.actions) : (simulate p (asIs (eesmFrame torque)) tau limits st [a0, a1]).2 = .error .value := by
  have hs := fMulti_safe [.b6, k]
  have hd : dims [.b6, k] = 4 := by show 3 + (k.dim + 0) = 4; rw [hk]
  obtain ⟨cs', ts, e1, e2, -⟩ := hs.set st.conv [a0, a1] st.t (by rw [hc]; exact .cons ⟨rfl, hb⟩ (.cons hck .nil))
    (.cons h8 (.cons h1 .nil))
  refine eesm_raises hu (hd ▸ hs) torque tau limits st _ e1 e2 ?_
  have hsub : (b6Sub a0).1 = 1 := by
    obtain rfl | rfl | rfl | rfl : a0 = 4 ∨ a0 = 5 ∨ a0 = 6 ∨ a0 = 7 := by omega
    all_goals rfl
  obtain ⟨-, a1', a2'⟩ : (b6Sub a0).1 < 3 ∧ (b6Sub a0).2.1 < 3 ∧ (b6Sub a0).2.2 < 3 := by unfold b6Sub; split <;> norm_num
  have s0 : b.s0.setAction (b6Sub a0).1 st.t = ({ b.s0 with start := st.t, action := 1, pattern := [0, 1] },
      .ok [st.t + b.s0.il, st.t + b.s0.tau]) := by
    rw [hsub]
    unfold TwoQC.setAction
    rw [if_pos (by norm_num), if_neg (by simp [hlow, hil])]
  obtain ⟨c1, t1, s1, -⟩ := two_set hb.2.1 a1' st.t
  obtain ⟨c2, t2, s2, -⟩ := two_set hb.2.2 a2' st.t
  obtain ⟨c3, t3, s3, -⟩ := (f_safe k).set c a1 st.t hck h1
  have s3 : c.setAction a1 st.t = (c3, .ok t3) := s3
  have s4 : ∃ b', (FConv.b6 b).setAction a0 st.t = (b', .ok (sortedSet ([st.t + b.s0.il, st.t + b.s0.tau] ++ t1 ++ t2))) :=
    ⟨_, by simp only [FConv.setAction, B6.setAction, if_pos h8, s0, s1, s2]; rfl⟩
  obtain ⟨b', s4⟩ := s4
  rw [hc] at e1
  simp only [finiteMulti, multiSetAction, multiSetActionAux, s4, s3, Prod.mk.injEq, Except.ok.injEq] at e1
  rw [← e1.2]
  exact sortedSet_two (x := st.t + b.s0.il) (y := st.t + b.s0.tau) (by simp [mem_sortedSet]) (by simp [mem_sortedSet])
    (by simpa using hne)

/-! ## Examples -/

/-- Newly made converters are of their kinds, also after the system has told them its sampling time. -/
example (d il tau : ℝ) : List.Forall₂ IsF [.b6, .four] (multiSetTau [.b6 (B6.new d il), .four (FourQC.new d il)] tau) :=
  .cons ⟨rfl, by simp [FConv.setTau, Switched, B6.new, TwoQC.new]⟩
    (.cons ⟨rfl, by simp [FConv.setTau, Switched, FourQC.new, TwoQC.new]⟩ .nil)

/-- The defaults of the EESM environments: bridges side by side keep their sampling time. -/
example (d tau : ℝ) : CTogether d (cMultiSetTau [.b6 (CB6.new d 0), .four (CFour.new d 0)] tau) := by
  simp [CTogether, cMultiSetTau, CConv.setTau, cTimes, CB6.new, CFour.new, CTwo.new]

/-- After one step with the first phase low, the first half bridge of a bridge with interlocking time is low. -/
example (d il : ℝ) (x y z : ℝ) : ∃ b, (((FConv.b6 (B6.new d il)).setAction 0 0).1.convert [x, y, z] 0).1 = .b6 b ∧ b.s0.state = 2 := by
  refine ⟨_, by simp [FConv.setAction, B6.setAction, B6.new, TwoQC.setAction, TwoQC.new, b6Sub, FConv.convert, B6.convert, TwoQC.convert]; rfl, ?_⟩
  rfl

/-- A PMSM with a finite bridge with interlocking time: an Euler step, an ideal supply. -/
example (d il tau V : ℝ) (limits : List ℝ) (hl : limits.length = 14) :
    AcceptsAll (S := SyncY × ℝ) (P := Unit)
      ⟨fun s => s.2, fun s => s.1, fun s _ t => (s.1, t), fun _ y t => (y, t), FConv.setAction, FConv.convert, FConv.iSup, FConv.reset,
        fun p _ _ => (p, [V]), fun p => (p, [V])⟩
      (asIs (syncFrame (fun y => y.i 1) false)) (syncReset fun y => y.i 1) tau limits 14 (IsF .b6) (SyncShape 1) fun a => a < 8 :=
  (c109_sync ["omega"] _ tau limits (by simpa [syncNames] using hl)).1.1 .b6 rfl _ ⟨rfl, rfl, rfl, rfl⟩
    ⟨fun _ _ _ => rfl, fun _ => rfl, fun _ _ _ h => h, fun _ _ _ h => h⟩

end

end GEM.Props
