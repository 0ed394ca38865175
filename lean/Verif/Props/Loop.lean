import Mathlib.Tactic.Linarith
import Mathlib.Tactic.Ring
import Verif.Model.Loop

/-!
# C57, C58: the control loop and the factory
-/

namespace GEM.Props

open GEM GEM.Run

variable {σ κ o a : Type}

/-! ## C57 -/

/-- number of steps before the first reset, between two resets, ..., after the last reset -/
def stepCounts : List (Ev o) → List ℕ
  | [] => [0]
  | .envReset _ :: l => 0 :: stepCounts l
  | .ctlReset :: l => stepCounts l
  | .step _ _ _ :: l =>
    match stepCounts l with
    | [] => []
    | h :: t => (h + 1) :: t

/-- lengths of the episodes: the steps after each reset of the environment -/
def episodes (l : List (Ev o)) : List ℕ := (stepCounts l).tail

/-- the observation the environment has given last -/
def lastObs (start : Option o) : List (Ev o) → Option o
  | [] => start
  | .envReset x :: l => lastObs (some x) l
  | .ctlReset :: l => lastObs start l
  | .step _ x _ :: l => lastObs (some x) l

theorem stepCounts_loop (p : Parts σ κ o a) (m : ℕ) (n : ℕ) : ∀ (env : σ) (ctl : κ) (obs : o) (count : ℕ),
    ∃ h t, stepCounts (loop p (some m) n env ctl obs count) = h :: t ∧ h ≤ max (m + 1 - count) 1 ∧ ∀ x ∈ t, x ≤ max m 1 := by
  induction n with
  | zero => intro _ _ _ _; exact ⟨0, [], rfl, by omega, by simp⟩
  | succ n ih =>
    intro env ctl obs count
    simp only [loop]
    split
    · obtain ⟨h, t, e, h1, h2⟩ := ih (p.envReset (p.envStep env (p.control ctl obs).2).1).1
        (p.ctlReset (p.control ctl obs).1) (p.envReset (p.envStep env (p.control ctl obs).2).1).2 (0 + 1)
      refine ⟨1, h :: t, by simp [stepCounts, e], by omega, ?_⟩
      intro x hx
      rcases List.mem_cons.mp hx with rfl | hx
      · omega
      · exact h2 x hx
    · rename_i hc
      obtain ⟨h, t, e, h1, h2⟩ := ih (p.envStep env (p.control ctl obs).2).1 (p.control ctl obs).1
        (p.envStep env (p.control ctl obs).2).2.1 (count + 1)
      refine ⟨h + 1, t, by simp [stepCounts, e], ?_, h2⟩
      have : count < m := by
        simp only [reached, Bool.or_eq_true, decide_eq_true_eq, not_or, not_le] at hc
        exact hc.2
      omega

/-- C57, the part that holds: with `max_episode_length = m` the first episode has at most `m + 1` steps, every other one at
most `m` (at least 1 is always allowed). -/
theorem c57_length_partial (p : Parts σ κ o a) (m n : ℕ) (env : σ) (ctl : κ) :
    ∃ first rest, episodes (controlEnvironment p (some m) n env ctl) = first :: rest
      ∧ first ≤ m + 1 ∧ ∀ x ∈ rest, x ≤ max m 1 := by
  obtain ⟨h, t, e, h1, h2⟩ := stepCounts_loop p m n (p.envReset env).1 (p.ctlReset ctl) (p.envReset env).2 0
  exact ⟨h, t, by simp [episodes, controlEnvironment, stepCounts, e], by omega, h2⟩

/-- an environment that never ends an episode -/
def Parts.Endless (p : Parts σ κ o a) : Prop := ∀ env act, (p.envStep env act).2.2 = false

theorem endless_loop (p : Parts σ κ o a) (he : Parts.Endless p) (m : ℕ) : ∀ (k n : ℕ) (env : σ) (ctl : κ) (obs : o) (count : ℕ),
    count + k = m → ∃ env' ctl' obs', stepCounts (loop p (some m) (k + 1 + n) env ctl obs count)
      = (k + 1) :: stepCounts (loop p (some m) n env' ctl' obs' 1) := by
  intro k
  induction k with
  | zero =>
    intro n env ctl obs count h
    refine ⟨(p.envReset (p.envStep env (p.control ctl obs).2).1).1, p.ctlReset (p.control ctl obs).1,
      (p.envReset (p.envStep env (p.control ctl obs).2).1).2, ?_⟩
    rw [show 0 + 1 + n = n + 1 by omega, loop]
    have hr : reached (some m) count = true := by simp [reached]; omega
    simp only [hr, Bool.or_true, if_true, stepCounts]
  | succ k ih =>
    intro n env ctl obs count h
    obtain ⟨env', ctl', obs', e⟩ := ih n (p.envStep env (p.control ctl obs).2).1 (p.control ctl obs).1
        (p.envStep env (p.control ctl obs).2).2.1 (count + 1) (by omega)
    refine ⟨env', ctl', obs', ?_⟩
    rw [show k + 1 + 1 + n = (k + 1 + n) + 1 by omega, loop]
    have hr : reached (some m) count = false := by simp [reached]; omega
    have hb := he env (p.control ctl obs).2
    simp only [hr, hb, Bool.or_false, Bool.false_eq_true, if_false, stepCounts]
    rw [e]

/-- C57 is violated in the first episode of every run that is long enough: if the environment does not end it, it has `m + 1`
steps. -/
theorem c57_first_violated (p : Parts σ κ o a) (he : Parts.Endless p) (m n : ℕ) (env : σ) (ctl : κ) :
    ∃ rest, episodes (controlEnvironment p (some m) (m + 1 + n) env ctl) = (m + 1) :: rest := by
  obtain ⟨env', ctl', obs', e⟩ := endless_loop p he m m n (p.envReset env).1 (p.ctlReset ctl) (p.envReset env).2 0 (by omega)
  refine ⟨stepCounts (loop p (some m) n env' ctl' obs' 1), ?_⟩
  simp only [episodes, controlEnvironment, stepCounts]
  rw [e, List.tail_cons]

/-- C57.  All later episodes have exactly `m` steps in this case (`m` at least 1), until the steps run out. -/
theorem c57_later (p : Parts σ κ o a) (he : Parts.Endless p) (m : ℕ) (hm : 1 ≤ m) (k : ℕ) (env : σ) (ctl : κ) :
    episodes (controlEnvironment p (some m) (m + 1 + k * m) env ctl) = (m + 1) :: (List.replicate k m ++ [0]) := by
  have key : ∀ k env ctl obs, stepCounts (loop p (some m) (k * m) env ctl obs 1) = List.replicate k m ++ [0] := by
    intro k
    induction k with
    | zero => intro _ _ _; simp [loop, stepCounts]
    | succ k ih =>
      intro env ctl obs
      obtain ⟨env', ctl', obs', e⟩ := endless_loop p he m (m - 1) (k * m) env ctl obs 1 (by omega)
      rw [show (k + 1) * m = m - 1 + 1 + k * m by rw [Nat.sub_add_cancel hm]; ring, e, ih, Nat.sub_add_cancel hm]
      rfl
  obtain ⟨env', ctl', obs', e⟩ := endless_loop p he m m (k * m) (p.envReset env).1 (p.ctlReset ctl) (p.envReset env).2 0
    (by omega)
  simp only [episodes, controlEnvironment, stepCounts]
  rw [e, key, List.tail_cons]

/-- C57.  Without a limit an episode is only ended by the environment: every reset but the first follows an ended step. -/
theorem c57_unlimited (p : Parts σ κ o a) (he : Parts.Endless p) (n : ℕ) (env : σ) (ctl : κ) :
    episodes (controlEnvironment p none n env ctl) = [n] := by
  have key : ∀ n env ctl obs count, stepCounts (loop p none n env ctl obs count) = [n] := by
    intro n
    induction n with
    | zero => intros; rfl
    | succ n ih =>
      intro env ctl obs count
      have hb := he env (p.control ctl obs).2
      simp only [loop, reached, hb, Bool.or_false, Bool.false_eq_true, if_false, stepCounts, ih]
  simp [episodes, controlEnvironment, stepCounts, key]

/-- What has to follow an event. -/
def Follows (limit : Option ℕ) : List (Ev o) → Prop
  | [] => True
  | .envReset _ :: l => (∃ l', l = .ctlReset :: l') ∧ Follows limit l
  | .ctlReset :: l => (∀ l', l ≠ .ctlReset :: l') ∧ Follows limit l
  | .step _ _ b :: l => (b = true → ∃ x l', l = .envReset x :: l') ∧ (limit = none → b = false → ∀ x l', l ≠ .envReset x :: l')
      ∧ (∀ l', l ≠ .ctlReset :: l') ∧ Follows limit l

theorem loop_head (p : Parts σ κ o a) (limit : Option ℕ) (n : ℕ) (env : σ) (ctl : κ) (obs : o) (count : ℕ) :
    loop p limit n env ctl obs count = [] ∨ ∃ x b l, loop p limit n env ctl obs count = .step obs x b :: l := by
  cases n with
  | zero => exact Or.inl rfl
  | succ n =>
    right
    simp only [loop]
    split
    · exact ⟨_, _, _, rfl⟩
    · exact ⟨_, _, _, rfl⟩

/-- C57.  Environment and controller are reset together: each reset of the environment is followed at once by one of the
controller, which is never reset otherwise; each step that ends an episode is followed at once by these resets, also the last
step; without a limit there are no other resets. -/
theorem c57_together (p : Parts σ κ o a) (limit : Option ℕ) (n : ℕ) (env : σ) (ctl : κ) :
    Follows limit (controlEnvironment p limit n env ctl) := by
  have hno : ∀ n env ctl obs count l', loop p limit n env ctl obs count ≠ .ctlReset :: l' := by
    intro n env ctl obs count l' h
    rcases loop_head p limit n env ctl obs count with h' | ⟨x, b, l, h'⟩ <;> rw [h'] at h <;> simp at h
  have hno2 : ∀ n env ctl obs count x l', loop p limit n env ctl obs count ≠ .envReset x :: l' := by
    intro n env ctl obs count x l' h
    rcases loop_head p limit n env ctl obs count with h' | ⟨y, b, l, h'⟩ <;> rw [h'] at h <;> simp at h
  have key : ∀ n env ctl obs count, Follows limit (loop p limit n env ctl obs count) := by
    intro n
    induction n with
    | zero => intros; trivial
    | succ n ih =>
      intro env ctl obs count
      simp only [loop]
      split
      · rename_i hc
        refine ⟨fun _ => ⟨_, _, rfl⟩, ?_, ?_, ⟨_, rfl⟩, hno _ _ _ _ _, ih _ _ _ _⟩
        · intro hl hb x l' _
          rw [hl, hb] at hc
          simp [reached] at hc
        · intro l' h
          simp at h
      · rename_i hc
        refine ⟨?_, fun _ _ => hno2 _ _ _ _ _, hno _ _ _ _ _, ih _ _ _ _⟩
        intro hb
        rw [hb] at hc
        simp at hc
  exact ⟨⟨_, rfl⟩, hno _ _ _ _ _, key _ _ _ _ _⟩

/-- C57.  The controller always works with the observation the environment has given last, after a reset with the one of the
reset. -/
theorem c57_fresh (p : Parts σ κ o a) (limit : Option ℕ) (n : ℕ) (env : σ) (ctl : κ) (before after : List (Ev o))
    (seen obs : o) (ended : Bool) (h : controlEnvironment p limit n env ctl = before ++ .step seen obs ended :: after) :
    lastObs none before = some seen := by
  have key : ∀ n env ctl obs0 count before after seen obs ended,
      loop p limit n env ctl obs0 count = before ++ .step seen obs ended :: after → lastObs (some obs0) before = some seen := by
    intro n
    induction n with
    | zero => intro _ _ _ _ before after seen obs ended h; simp [loop] at h
    | succ n ih =>
      intro env ctl obs0 count before after seen obs ended h
      simp only [loop] at h
      split at h
      · match before, h with
        | [], h =>
          simp only [List.nil_append, List.cons.injEq, Ev.step.injEq] at h
          rw [← h.1.1]; rfl
        | [x], h => simp at h
        | [x, y], h => simp at h
        | x :: y :: z :: l, h =>
          simp only [List.cons_append, List.cons.injEq] at h
          obtain ⟨rfl, rfl, rfl, h⟩ := h
          simp only [lastObs]
          exact ih _ _ _ _ _ _ _ _ _ h
      · match before, h with
        | [], h =>
          simp only [List.nil_append, List.cons.injEq, Ev.step.injEq] at h
          rw [← h.1.1]; rfl
        | x :: l, h =>
          simp only [List.cons_append, List.cons.injEq] at h
          obtain ⟨rfl, h⟩ := h
          simp only [lastObs]
          exact ih _ _ _ _ _ _ _ _ _ h
  match before, h with
  | [], h => simp [controlEnvironment] at h
  | [x], h => simp [controlEnvironment] at h
  | x :: y :: l, h =>
    simp only [controlEnvironment, List.cons_append, List.cons.injEq] at h
    obtain ⟨rfl, rfl, h⟩ := h
    simp only [lastObs]
    exact key _ _ _ _ _ _ _ _ _ _ h

/-- C57.  There are exactly `n` steps. -/
theorem c57_steps (p : Parts σ κ o a) (limit : Option ℕ) (n : ℕ) (env : σ) (ctl : κ) :
    (episodes (controlEnvironment p limit n env ctl)).sum = n := by
  have key : ∀ n env ctl obs count, (stepCounts (loop p limit n env ctl obs count)).sum = n
      ∧ stepCounts (loop p limit n env ctl obs count) ≠ [] := by
    intro n
    induction n with
    | zero => intros; simp [loop, stepCounts]
    | succ n ih =>
      intro env ctl obs count
      simp only [loop]
      split
      · simp only [stepCounts, List.sum_cons]
        exact ⟨by rw [(ih _ _ _ _).1]; omega, by simp⟩
      · simp only [stepCounts]
        obtain ⟨h1, h2⟩ := ih (p.envStep env (p.control ctl obs).2).1 (p.control ctl obs).1
          (p.envStep env (p.control ctl obs).2).2.1 (count + 1)
        split
        · rename_i h
          exact absurd h h2
        · rename_i x t h
          rw [h] at h1
          simp only [List.sum_cons] at h1 ⊢
          exact ⟨by omega, by simp⟩
  simp [episodes, controlEnvironment, stepCounts, (key n _ _ _ _).1]

/-- a counting environment that ends after its third step, 7 steps, limit 2: episodes of 3, 2 and 2 steps, and one just
begun -/
example :
    episodes (controlEnvironment
      (⟨fun _ => (0, 0), fun s _ => (s + 1, s + 1, s + 1 == 3), id, fun k _ => (k, ())⟩ : Parts ℕ Unit ℕ Unit) (some 2) 7 5 ())
      = [3, 2, 2, 0] := by decide +kernel

/-! ## C58 -/

theorem current_ok (s : Setting) (m : MotorId) (b : BaseId) :
    currentTune s m b = .ok () ↔ (b = .p ∨ b = .pi ∨ b = .pid) ∧ m ≠ .dfim ∧ (m = .scim → s.observer = true) := by
  have h3 : (tuneSig b).bind 3 [] = .ok () ↔ (b = .p ∨ b = .pi ∨ b = .pid) := by cases b <;> decide
  cases m <;> cases h : s.observer <;> simp [currentTune, h3, h]

theorem torque_ok (s : Setting) (m : MotorId) (b : BaseId) :
    torqueTune s m b = .ok () ↔ currentTune s m b = .ok () ∧ (m.dc = true ∨ (m = .eesm ∧ s.npComplex = true)) := by
  unfold torqueTune
  cases currentTune s m b with
  | error e => simp
  | ok u =>
    cases m <;> cases hc : s.npComplex <;> cases hs : s.syncTune <;> cases ho : s.observer <;>
      simp [opsTune, actionRange, MotorId.dc, hc, hs, ho]

theorem speed_ok (s : Setting) (m : MotorId) (bc bs : BaseId) :
    speedTune s m bc bs = .ok () ↔ torqueTune s m bc = .ok () ∧ (bs = .pi ∨ bs = .i) ∧ ¬ (m = .permExDc ∧ bc = .p) := by
  have h4 : speedBaseTune bs = .ok () ↔ (bs = .pi ∨ bs = .i) := by cases bs <;> decide
  unfold speedTune
  cases torqueTune s m bc with
  | error e => simp
  | ok u => cases m <;> cases bc <;> simp [minTn, h4]

/-- C58, the part that holds: current control with P, PI and PID for all motors but the DFIM (the squirrel cage motor with a
flux observer); torque control with these for direct current motors, and for the EESM as long as numpy has `np.complex`; speed
control for the same motors with a PI speed controller (but not for the permanently excited motor with a P current
controller).  And nothing else that is documented works. -/
theorem c58_partial (s : Setting) (t : Task) (m : MotorId) (bc bs : BaseId) (hbs : bs ≠ .i) :
    make s t m bc bs = .ok () ↔
      (bc = .p ∨ bc = .pi ∨ bc = .pid) ∧ m ≠ .dfim ∧ (m = .scim → s.observer = true)
        ∧ (t ≠ .cc → m.dc = true ∨ (m = .eesm ∧ s.npComplex = true))
        ∧ (t = .sc → bs = .pi ∧ ¬ (m = .permExDc ∧ bc = .p)) := by
  cases t with
  | cc => simp [make, current_ok]
  | tc =>
    by_cases hm : m = .dfim
    · simp [make, hm]
    · simp [make, hm, torque_ok, current_ok, and_assoc]
  | sc =>
    by_cases hm : m = .dfim
    · simp [make, hm]
    · simp [make, hm, speed_ok, torque_ok, current_ok, and_assoc, hbs]

/-- C58 is violated by the three point controller: it can never be used for the current, whatever the motor and the task. -/
theorem c58_threePoint_violated (s : Setting) (t : Task) (m : MotorId) (bs : BaseId) : make s t m .threePoint bs ≠ .ok () := by
  have h3 : (tuneSig .threePoint).bind 3 [] = .error .type := by decide
  cases t <;> cases m <;> simp [make, currentTune, torqueTune, speedTune, h3] <;> split_ifs <;> simp

/-- C58 is violated by speed control with anything but PI. -/
theorem c58_speed_violated (s : Setting) (m : MotorId) (bc bs : BaseId) (h : bs = .p ∨ bs = .pid ∨ bs = .threePoint) :
    make s .sc m bc bs ≠ .ok () := by
  intro e
  have := (c58_partial s .sc m bc bs (by rcases h with h | h | h <;> rw [h] <;> simp)).mp e
  obtain ⟨_, _, _, _, h5⟩ := this
  have := (h5 rfl).1
  rcases h with h | h | h <;> rw [h] at this <;> simp at this

/-- C58 is violated by torque and speed control of every three phase motor but the EESM, with every base controller: also with
the default ones. -/
theorem c58_torque_violated (s : Setting) (t : Task) (ht : t ≠ .cc) (m : MotorId) (hm : m = .pmsm ∨ m = .synRM ∨ m = .scim)
    (bc bs : BaseId) (hbs : bs ≠ .i) : make s t m bc bs ≠ .ok () := by
  intro e
  obtain ⟨_, _, _, h4, _⟩ := (c58_partial s t m bc bs hbs).mp e
  rcases hm with rfl | rfl | rfl <;> rcases h4 ht with h | h <;> simp [MotorId.dc] at h

/-- the default choice for a direct current motor -/
example (s : Setting) : make s .sc .seriesDc .pi .pi = .ok () := by
  rw [c58_partial s _ _ _ _ (by simp)]
  simp [MotorId.dc]

end GEM.Props
