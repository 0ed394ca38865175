import Verif.Props.Symmetry

/-!
# C135, C136: the drives

C135: interchanging the phases of three-phase motors cyclically.  C136: reversing the direction of currents and rotation.
-/

set_option linter.unusedSectionVars false

namespace GEM.Props

noncomputable section

open GEM GEM.Sys GEM.Conv GEM.Motor GEM.Solver GEM.Load

/-! ## Statement -/

/-- the limits are those of the exchanged quantities -/
structure EvenLimits (names told : List String) (limits : List ℝ) (partner : String → String) : Prop where
  length : limits.length = names.length
  same : ∀ n ∈ told, readState names limits (partner n) = readState names limits n
  angle : "epsilon" ∈ told → readState names limits "epsilon" ≠ 0

/-- Two systems, equal up to their loads (and the used arrays), with fresh converters: all answers to corresponding histories correspond
to each other.  Histories begin with a reset and may contain more of them. -/
def SameCourse {m : ℕ} {Y U A C P : Type} (pw : Power A C) (src : Source P) (load load' : AnyLoad) (torque : (Fin m → ℝ) → ℝ)
    (ode : (Fin m → ℝ) → U → ℝ → Fin m → ℝ) (toY : (Fin (1 + m) → ℝ) → Y) (ofY : Y → Fin (1 + m) → ℝ) (f : Frame ℝ Y U A)
    (rep : Y → List ℝ → List ℝ → Except Err (List ℝ)) (limits : List ℝ) (conv : C) (move : (Fin (1 + m) → ℝ) → Fin (1 + m) → ℝ)
    (asked : A → A → Prop) (obs : List ℝ → List ℝ → Prop) : Prop :=
  ∀ (tau : ℝ) (scratch scratch' : Option (Fin (1 + m) → ℝ)) (st st' : St ℝ (Euler ℝ (Fin (1 + m) → ℝ)) C P) (x : Fin (1 + m) → ℝ)
    (ops ops' : List (Y ⊕ A)), st.conv = conv → st'.conv = conv → st'.supply = st.supply → st'.solver.nsteps = st.solver.nsteps →
    List.Forall₂ (Paired toY move asked) ops ops' →
    List.Forall₂ (Echo obs) (answers (eulerParts pw src load torque ode scratch toY ofY) f rep tau limits st (.inl (toY x) :: ops))
      (answers (eulerParts pw src load' torque ode scratch' toY ofY) f rep tau limits st' (.inl (toY (move x)) :: ops'))

/-- the three phases, cyclically: a, b, c become c, a, b -/
def cyc : Equiv.Perm (Fin 3) := ⟨![2, 0, 1], ![1, 2, 0], by decide, by decide⟩
/-- phases b and c -/
def swapBC : Equiv.Perm (Fin 3) := ⟨![0, 2, 1], ![0, 2, 1], by decide, by decide⟩

/-- the load seen from the other direction -/
def AnyLoad.opposite : AnyLoad → AnyLoad
  | .external profile tau => .external (fun t => -profile t) tau
  | l => l

/-! ## From the loads, motors and converters to the systems -/

section build

variable {m n : ℕ} {Y U A C P : Type} {pw : Power A C} {src : Source P} {torque : (Fin m → ℝ) → ℝ}
  {ode : (Fin m → ℝ) → U → ℝ → Fin m → ℝ} {load load' : AnyLoad}
  {toY : (Fin (1 + m) → ℝ) → Y} {ofY : Y → Fin (1 + m) → ℝ} {f : Frame ℝ Y U A}
  {rep : Y → List ℝ → List ℝ → Except Err (List ℝ)} {limits : List ℝ} {τ : (Fin n → ℝ) → Fin n → ℝ}
  {lin : (Fin (1 + m) → ℝ) →ₗ[ℝ] Fin (1 + m) → ℝ} {shift : Fin (1 + m) → ℝ} {onU : U → U} {mate asked : A → A → Prop}
  {obs : List ℝ → List ℝ → Prop} {rest busy : C → C → Prop}

theorem sameCourse_of (h : Mirrored src pw rest busy mate asked τ f rep limits toY ofY lin shift onU torque ode load load' obs) {conv : C}
    (hc : rest conv conv) {move : (Fin (1 + m) → ℝ) → Fin (1 + m) → ℝ} (hm : ∀ x, lin x + shift = move x) :
    SameCourse pw src load load' torque ode toY ofY f rep limits conv move asked obs := by
  intro tau scratch scratch' st st' x ops ops' c1 c2 h2 h3 ho
  obtain rfl : move = fun x => lin x + shift := funext fun x => (hm x).symm
  have hrest : rest st.conv st'.conv := by rw [c1, c2]; exact hc
  obtain ⟨hr, w, e1, e2⟩ := h.twin.reset _ _ hrest
  obtain ⟨v, hv⟩ := h.one.2 st.supply
  refine .cons ?_ (answers_twin h tau ho ?_)
  · simp only [reset, eulerParts, h2, hv, e1, e2, products_ofFn]
    rw [← h.frames.hom]
    exact h.frames.start x (fun k => w k * v) v
  · refine ⟨rfl, ?_, ⟨rfl, h3, ?_⟩, hr⟩
    · simp only [reset, eulerParts, h2]
    · simp only [reset, eulerParts, Euler.setInitialValue, h.back]

/-- the map of the states of the drive that multiplies the speed by `s` and applies `g` to the states of the motor -/
def blockMap (s : ℝ) (g : (Fin m → ℝ) →ₗ[ℝ] Fin m → ℝ) : (Fin (1 + m) → ℝ) →ₗ[ℝ] Fin (1 + m) → ℝ where
  toFun x := Fin.append (fun _ : Fin 1 => s * x (Fin.castAdd m 0)) (g fun i => x (Fin.natAdd 1 i))
  map_add' x y := by
    have e : (fun i => (x + y) (Fin.natAdd 1 i)) = (fun i => x (Fin.natAdd 1 i)) + fun i => y (Fin.natAdd 1 i) := rfl
    funext i
    refine Fin.addCases (fun i => ?_) (fun i => ?_) i
    · simp [mul_add]
    · simp only [Fin.append_right, Pi.add_apply]
      exact (congrFun (congrArg g e) i).trans (congrFun (map_add g _ _) i)
  map_smul' c x := by
    have e : (fun i => (c • x) (Fin.natAdd 1 i)) = c • fun i => x (Fin.natAdd 1 i) := rfl
    funext i
    refine Fin.addCases (fun i => ?_) (fun i => ?_) i
    · simp; ring
    · simp only [Fin.append_right, Pi.smul_apply, RingHom.id_apply]
      exact (congrFun (congrArg g e) i).trans (congrFun (map_smul g _ _) i)

theorem drive_mech (u : U) (t : ℝ) (x : Fin (1 + m) → ℝ) : drive torque ode load none u t x (Fin.castAdd m 0) =
    load.mech t (fun _ => x (Fin.castAdd m 0)) (torque fun i => x (Fin.natAdd 1 i)) 0 := by
  have e : (fun i : Fin 1 => x (Fin.castAdd m i)) = fun _ => x (Fin.castAdd m 0) := by
    funext i
    rw [Subsingleton.elim i 0]
  simp [drive, systemEquation, e]

theorem drive_motor (u : U) (t : ℝ) (x : Fin (1 + m) → ℝ) (i : Fin m) : drive torque ode load none u t x (Fin.natAdd 1 i) =
    ode (fun i => x (Fin.natAdd 1 i)) u (x (Fin.castAdd m 0)) i := by
  simp [drive, systemEquation]

theorem rhs_block {s : ℝ} {g : (Fin m → ℝ) →ₗ[ℝ] Fin m → ℝ} {d : Fin m → ℝ} (ht : ∀ z, torque (g z + d) = s * torque z)
    (ho : ∀ z u w, ode (g z + d) (onU u) (s * w) = g (ode z u w))
    (hl : ∀ t w T, load'.mech t (fun _ => s * w) (s * T) 0 = s * load.mech t (fun _ => w) T 0) (u : U) (t : ℝ) (x : Fin (1 + m) → ℝ) :
    drive torque ode load' none (onU u) t (blockMap s g x + Fin.append 0 d) = blockMap s g (drive torque ode load none u t x) := by
  have e : (fun i => (blockMap s g x + Fin.append 0 d : Fin (1 + m) → ℝ) (Fin.natAdd 1 i)) = (g fun i => x (Fin.natAdd 1 i)) + d := by
    funext i
    simp [blockMap]
  have e0 : (blockMap s g x + Fin.append 0 d : Fin (1 + m) → ℝ) (Fin.castAdd m 0) = s * x (Fin.castAdd m 0) := by
    rw [Pi.add_apply, Fin.append_left]
    simp only [blockMap, LinearMap.coe_mk, AddHom.coe_mk, Fin.append_left, Pi.zero_apply, add_zero]
  funext i
  refine Fin.addCases (fun i => ?_) (fun i => ?_) i
  · rw [Subsingleton.elim i 0, drive_mech, e, e0, ht, hl]
    simp only [blockMap, LinearMap.coe_mk, AddHom.coe_mk, Fin.append_left, drive_mech]
  · rw [drive_motor, e, e0, ho]
    simp only [blockMap, LinearMap.coe_mk, AddHom.coe_mk, Fin.append_right, drive_motor]

theorem mech_same (load : AnyLoad) (t w T : ℝ) : load.mech t (fun _ => 1 * w) (1 * T) 0 = 1 * load.mech t (fun _ => w) T 0 := by
  simp only [one_mul]

theorem static_odd (l : Poly ℝ) (w : ℝ) : l.staticLoad (-w) = -l.staticLoad w := by
  have hs : sign (-w) = -sign w := by
    unfold sign
    rcases lt_trichotomy w 0 with h | h | h
    · simp [h, h.not_gt]
    · simp [h]
    · simp [h, h.not_gt]
  unfold Poly.staticLoad
  simp only [hs, abs_neg]
  split_ifs <;> ring

theorem mech_opposite (load : AnyLoad) (t w T : ℝ) :
    load.opposite.mech t (fun _ => -1 * w) (-1 * T) 0 = -1 * load.mech t (fun _ => w) T 0 := by
  cases load with
  | poly a b c j tau rs =>
    simp only [AnyLoad.opposite, AnyLoad.mech, polyMech, Poly.mechanicalOde, neg_one_mul, static_odd, Matrix.cons_val_zero]
    ring
  | const => simp [AnyLoad.opposite, AnyLoad.mech, constMech, constOde]
  | external p tau =>
    simp only [AnyLoad.opposite, AnyLoad.mech, externalOde, Matrix.cons_val_zero]
    ring

end build

/-! ## States -/

theorem read_div (names : List String) (s l : List ℝ) (n : String) :
    readState names (List.zipWith (· / ·) s l) n = readState names s n / readState names l n := by
  induction names generalizing s l with
  | nil => simp [readState]
  | cons m ms ih =>
    cases s with
    | nil => simp [readState]
    | cons x s =>
      cases l with
      | nil => simp [readState]
      | cons y l =>
        simp only [List.zipWith_cons_cons, readState]
        split_ifs
        · rfl
        · exact ih s l

theorem echo_image {names told : List String} {limits : List ℝ} {partner : String → String} {sgn : String → ℝ} {turn : ℝ}
    (hl : EvenLimits names told limits partner) {s s' : List ℝ} (h1 : s.length = names.length) (h2 : s'.length = names.length)
    (he : ∀ n ∈ told, n ≠ "epsilon" → readState names s' n = sgn n * readState names s (partner n))
    (ha : "epsilon" ∈ told → ∃ k : ℤ, readState names s' "epsilon" = sgn "epsilon" * readState names s "epsilon" + turn + 2 * Real.pi * k) :
    Echo (Image names told limits partner sgn turn) (divLimits s limits) (divLimits s' limits) := by
  unfold divLimits
  rw [if_pos (by rw [h1, hl.length]), if_pos (by rw [h2, hl.length])]
  refine ⟨⟨by simp [h1, hl.length], by simp [h2, hl.length]⟩, fun n hn hne => ?_, fun hm => ?_⟩
  · rw [read_div, read_div, he n hn hne, hl.same n hn, mul_div_assoc]
  · obtain ⟨k, hk⟩ := ha hm
    refine ⟨k, ?_⟩
    have h0 := hl.angle hm
    rw [read_div, read_div, div_mul_cancel₀ _ h0, div_mul_cancel₀ _ h0, hk]

/-! ## Angles -/

theorem wrap_turns (e : ℝ) : ∃ k : ℤ, wrap e = e + 2 * Real.pi * k := by
  unfold wrap
  simp only
  split_ifs
  · exact ⟨-⌊e / (2 * Real.pi)⌋ - 1, by push_cast; ring⟩
  · exact ⟨-⌊e / (2 * Real.pi)⌋, by push_cast; ring⟩

theorem wrapReset_turns (e : ℝ) : ∃ k : ℤ, wrapReset e = e + 2 * Real.pi * k := by
  unfold wrapReset
  split_ifs
  · exact ⟨-1, by push_cast; ring⟩
  · exact ⟨0, by simp⟩

theorem q_turns (v : Fin 2 → ℝ) (e : ℝ) (k : ℤ) : q v (e + 2 * Real.pi * k) = q v e := by
  have h : e + 2 * Real.pi * k = e + k * (2 * Real.pi) := by ring
  unfold q
  rw [h, Real.cos_add_int_mul_two_pi, Real.sin_add_int_mul_two_pi]

theorem qInv_turns (v : Fin 2 → ℝ) (e : ℝ) (k : ℤ) : qInv v (e + 2 * Real.pi * k) = qInv v e := by
  unfold qInv
  rw [← q_turns v (-e) (-k)]
  congr 1
  push_cast
  ring

theorem dqToAbc_turns (v : Fin 2 → ℝ) (e : ℝ) (k : ℤ) : dqToAbc v (e + 2 * Real.pi * k) = dqToAbc v e := by
  unfold dqToAbc
  rw [q_turns]

theorem abcToDq_fullTurns (v : Fin 3 → ℝ) (e : ℝ) (k : ℤ) : abcToDq v (e + 2 * Real.pi * k) = abcToDq v e := by
  unfold abcToDq
  rw [qInv_turns]

theorem cos_twoThirdsPi : Real.cos (2 * Real.pi / 3) = -(1 / 2) := by
  rw [show 2 * Real.pi / 3 = Real.pi - Real.pi / 3 by ring, Real.cos_pi_sub, Real.cos_pi_div_three]

theorem sin_twoThirdsPi : Real.sin (2 * Real.pi / 3) = √3 / 2 := by
  rw [show 2 * Real.pi / 3 = Real.pi - Real.pi / 3 by ring, Real.sin_pi_sub, Real.sin_pi_div_three]

theorem t32_turn (v : Fin 2 → ℝ) : t32 (q v (2 * Real.pi / 3)) = t32 v ∘ cyc := by
  have h3 : √3 * √3 = (3 : ℝ) := Real.mul_self_sqrt (by norm_num)
  funext i
  fin_cases i
  · simp [t32, q, cos_twoThirdsPi, sin_twoThirdsPi, cyc, Matrix.mulVec, dotProduct, Fin.sum_univ_two]; ring
  · simp [t32, q, cos_twoThirdsPi, sin_twoThirdsPi, cyc, Matrix.mulVec, dotProduct, Fin.sum_univ_two]; linear_combination (v 0 / 4) * h3
  · simp [t32, q, cos_twoThirdsPi, sin_twoThirdsPi, cyc, Matrix.mulVec, dotProduct, Fin.sum_univ_two]; linear_combination (-v 0 / 4) * h3

theorem t23_turn (w : Fin 3 → ℝ) : t23 (w ∘ cyc) = q (t23 w) (2 * Real.pi / 3) := by
  have h3 : √3 * √3 = (3 : ℝ) := Real.mul_self_sqrt (by norm_num)
  funext i
  fin_cases i
  · simp [t23, q, cos_twoThirdsPi, sin_twoThirdsPi, cyc, Matrix.mulVec, dotProduct, Fin.sum_univ_three]
    linear_combination ((w 1 - w 2) / 6) * h3
  · simp [t23, q, cos_twoThirdsPi, sin_twoThirdsPi, cyc, Matrix.mulVec, dotProduct, Fin.sum_univ_three]; ring

theorem dqToAbc_turn (v : Fin 2 → ℝ) (e : ℝ) : dqToAbc v (e + 2 * Real.pi / 3) = dqToAbc v e ∘ cyc := by
  unfold dqToAbc
  rw [← c32_q_add, t32_turn]

theorem abcToDq_turn (w : Fin 3 → ℝ) (e : ℝ) : abcToDq (w ∘ cyc) (e + 2 * Real.pi / 3) = abcToDq w e := by
  unfold abcToDq qInv
  rw [t23_turn, c32_q_add]
  congr 1
  ring

/-- the mirror image of a vector in the plane -/
def reflect (v : Fin 2 → ℝ) : Fin 2 → ℝ := ![v 0, -v 1]

theorem t32_reflect (v : Fin 2 → ℝ) : t32 (reflect v) = t32 v ∘ swapBC := by
  funext i
  fin_cases i <;> simp [t32, reflect, swapBC, Matrix.mulVec, dotProduct, Fin.sum_univ_two]

theorem t23_reflect (w : Fin 3 → ℝ) : t23 (w ∘ swapBC) = reflect (t23 w) := by
  funext i
  fin_cases i
  · simp [t23, reflect, swapBC, Matrix.mulVec, dotProduct, Fin.sum_univ_three]; ring
  · simp [t23, reflect, swapBC, Matrix.mulVec, dotProduct, Fin.sum_univ_three]

theorem q_reflect (v : Fin 2 → ℝ) (e : ℝ) : q (reflect v) (-e) = reflect (q v e) := by
  funext i
  fin_cases i
  · simp [q, reflect]
  · simp [q, reflect]; ring

theorem qInv_reflect (v : Fin 2 → ℝ) (e : ℝ) : qInv (reflect v) (-e) = reflect (qInv v e) := by
  unfold qInv
  rw [q_reflect]

theorem dqToAbc_reflect (v : Fin 2 → ℝ) (e : ℝ) : dqToAbc (reflect v) (-e) = dqToAbc v e ∘ swapBC := by
  unfold dqToAbc
  rw [q_reflect, t32_reflect]

theorem abcToDq_reflect (w : Fin 3 → ℝ) (e : ℝ) : abcToDq (w ∘ swapBC) (-e) = reflect (abcToDq w e) := by
  unfold abcToDq
  rw [t23_reflect, qInv_reflect]

/-! ## Supplies -/

theorem ideal_one (u : ℝ) : OneVoltage (idealSource u) := ⟨fun _ _ _ => ⟨_, rfl⟩, fun _ => ⟨_, rfl⟩⟩
theorem ac_one (draw : ℝ) : OneVoltage (acSource draw) := ⟨fun _ _ _ => ⟨_, rfl⟩, fun _ => ⟨_, rfl⟩⟩
theorem rc_one : OneVoltage rcSource := ⟨fun _ _ _ => ⟨_, rfl⟩, fun _ => ⟨_, rfl⟩⟩

/-! ## Synchronous motors -/

/-- the torque of a synchronous motor system -/
def syncTq (torque : (Fin 3 → ℝ) → ℝ) (y : SyncY) : ℝ := torque ![y.i 0, y.i 1, y.eps]

/-- names after the cyclic interchange -/
def cycled (n : String) : String :=
  if n = "i_a" then "i_c" else if n = "i_b" then "i_a" else if n = "i_c" then "i_b"
  else if n = "u_a" then "u_c" else if n = "u_b" then "u_a" else if n = "u_c" then "u_b" else n

/-- names after interchanging phases b and c -/
def swapped (n : String) : String :=
  if n = "i_b" then "i_c" else if n = "i_c" then "i_b" else if n = "u_b" then "u_c" else if n = "u_c" then "u_b" else n

/-- signs in the opposite direction -/
def oppositeSign (n : String) : ℝ := if n ∈ ["omega", "torque", "i_sq", "u_sq", "epsilon"] then -1 else 1

/-- the names of the states of PMSM and SynRM systems -/
def syncStates : List String := syncNames ["omega"]

theorem syncStates_eq : syncStates =
    ["omega", "torque", "i_a", "i_b", "i_c", "i_sd", "i_sq", "u_a", "u_b", "u_c", "u_sd", "u_sq", "epsilon", "u_sup"] := rfl

/-- the image of a sync state vector -/
theorem sync_image_turn {limits : List ℝ} (hl : EvenLimits syncStates syncStates limits cycled) (om T : ℝ) (i : Fin 3 → ℝ) (idq : Fin 2 → ℝ)
    (w : Fin 3 → ℝ) (udq : Fin 2 → ℝ) (e e' v : ℝ) (he : ∃ k : ℤ, e' = e + 2 * Real.pi / 3 + 2 * Real.pi * k) :
    Echo (Image syncStates syncStates limits cycled (fun _ => 1) (2 * Real.pi / 3))
      (divLimits ([om] ++ [T] ++ l3 i ++ l2 idq ++ List.ofFn w ++ l2 udq ++ [e] ++ [v]) limits)
      (divLimits ([om] ++ [T] ++ l3 (i ∘ cyc) ++ l2 idq ++ List.ofFn (w ∘ cyc) ++ l2 udq ++ [e'] ++ [v]) limits) := by
  refine echo_image hl (by simp [syncStates_eq, l3, l2]) (by simp [syncStates_eq, l3, l2]) ?_ ?_
  · intro n hn hne
    rw [syncStates_eq] at hn
    simp only [List.mem_cons, List.not_mem_nil, or_false] at hn
    rcases hn with rfl | rfl | rfl | rfl | rfl | rfl | rfl | rfl | rfl | rfl | rfl | rfl | rfl | rfl <;>
      first
        | exact absurd rfl hne
        | simp [syncStates_eq, readState, cycled, l3, l2, cyc]
  · intro _
    obtain ⟨k, hk⟩ := he
    refine ⟨k, ?_⟩
    simp [syncStates_eq, readState, l3, l2, hk]

/-- the angle, turned by a third -/
def turnSync (x : Fin (1 + 3) → ℝ) : Fin (1 + 3) → ℝ := ![x 0, x 1, x 2, x 3 + 2 * Real.pi / 3]

theorem turnSync_eq (x : Fin (1 + 3) → ℝ) : blockMap 1 LinearMap.id x + Fin.append 0 ![0, 0, 2 * Real.pi / 3] = turnSync x := by
  funext i
  fin_cases i <;> simp [blockMap, turnSync, Fin.append, Fin.addCases, Fin.subNat]

/-- a system that works as a PMSM or SynRM system -/
structure LikeSync {A : Type} (tq : SyncY → ℝ) (f : Frame ℝ SyncY (Fin 2 → ℝ) A) : Prop where
  iIn : f.iIn = (syncFrame tq false).iIn
  loopU : f.loopU = (syncFrame tq false).loopU
  lastU : f.lastU = (syncFrame tq false).lastU
  report : f.report = (syncFrame tq false).report

theorem syncY_turn (x : Fin (1 + 3) → ℝ) : syncY (turnSync x) = ⟨[x 0], ![x 1, x 2], x 3 + 2 * Real.pi / 3⟩ := rfl

theorem sync_frames_turn {A : Type} {torque : (Fin 3 → ℝ) → ℝ} (ht : ∀ a b e e', torque ![a, b, e] = torque ![a, b, e'])
    {f : Frame ℝ SyncY (Fin 2 → ℝ) A} (hf : LikeSync (syncTq torque) f) {limits : List ℝ}
    (hl : EvenLimits syncStates syncStates limits cycled) {mate asked : A → A → Prop}
    (ha : ∀ x a a', asked a a' → mate (f.action (syncY x) a) (f.action (syncY (turnSync x)) a')) :
    Frames f (syncReset (syncTq torque)) limits syncY turnSync (fun w : Fin 3 → ℝ => w ∘ cyc) id mate asked
      (Image syncStates syncStates limits cycled (fun _ => 1) (2 * Real.pi / 3)) := by
  have hU : ∀ x (w : Fin 3 → ℝ), Echo (fun u u' => u' = id u) ((syncFrame (syncTq torque) false).lastU (syncY x) (List.ofFn w))
      ((syncFrame (syncTq torque) false).lastU (syncY (turnSync x)) (List.ofFn (w ∘ cyc))) := by
    intro x w
    simp only [syncFrame, three_ofFn, syncY_turn, Except.map, abcToDq_turn]
    rfl
  refine ⟨fun w v => rfl, fun x => ⟨syncCurr x, ?_, ?_⟩, ha, ?_, ?_, ?_, ?_⟩
  · rw [hf.iIn]
    exact l3_ofFn _
  · rw [hf.iIn]
    simp only [syncFrame, syncY_turn, dqToAbc_turn]
    exact l3_ofFn _
  · rw [hf.loopU]
    exact hU
  · rw [hf.lastU]
    exact hU
  · intro x z w v
    rw [hf.report]
    simp only [syncFrame, three_ofFn, syncY_turn, Except.map, abcToDq_turn, dqToAbc_turn, Except.bind]
    obtain ⟨k, hk⟩ := wrap_turns (z 3)
    obtain ⟨k', hk'⟩ := wrap_turns (z 3 + 2 * Real.pi / 3)
    have e : syncTq torque ⟨[z 0], ![z 1, z 2], z 3 + 2 * Real.pi / 3⟩ = syncTq torque (syncY z) := ht _ _ _ _
    rw [e]
    exact sync_image_turn hl _ _ _ _ _ _ _ _ _ ⟨k' - k, by rw [hk', show wrap (syncY z).eps = _ from hk]; push_cast; ring⟩
  · intro x w v
    obtain ⟨k, hk⟩ := wrapReset_turns (x 3)
    obtain ⟨k', hk'⟩ := wrapReset_turns (x 3 + 2 * Real.pi / 3)
    have h1 : wrapReset (syncY x).eps = x 3 + 2 * Real.pi * k := hk
    simp only [syncReset, three_ofFn, syncY_turn, Except.map, Except.bind, hk', h1, abcToDq_fullTurns, dqToAbc_turns, abcToDq_turn,
      dqToAbc_turn]
    have e : syncTq torque ⟨[x 0], ![x 1, x 2], x 3 + 2 * Real.pi / 3⟩ = syncTq torque (syncY x) := ht _ _ _ _
    rw [e]
    exact sync_image_turn hl _ _ _ _ _ _ _ _ _ ⟨k' - k, by push_cast; ring⟩

/-- Turned PMSM or SynRM systems, with a switched or an averaged B6 bridge, with actions for the phases or in dq coordinates. -/
def SyncPhasesAlike (torque : (Fin 3 → ℝ) → ℝ) (ode : (Fin 3 → ℝ) → (Fin 2 → ℝ) → ℝ → Fin 3 → ℝ) : Prop :=
  ∀ {P : Type} (src : Source P) (load : AnyLoad) (limits : List ℝ) (T I : ℝ), OneVoltage src →
    EvenLimits syncStates syncStates limits cycled →
    SameCourse finitePower src load load torque ode syncY ofSyncY (asIs (syncFrame (syncTq torque) false)) (syncReset (syncTq torque)) limits
      (.b6 (B6.new T I)) turnSync (SwitchesMoved cyc) (Image syncStates syncStates limits cycled (fun _ => 1) (2 * Real.pi / 3)) ∧
    SameCourse contPower src load load torque ode syncY ofSyncY (syncFrame (syncTq torque) false) (syncReset (syncTq torque)) limits
      (.b6 (CB6.new T I)) turnSync (DutiesMoved cyc) (Image syncStates syncStates limits cycled (fun _ => 1) (2 * Real.pi / 3)) ∧
    SameCourse contPower src load load torque ode syncY ofSyncY (syncFrame (syncTq torque) true) (syncReset (syncTq torque)) limits
      (.b6 (CB6.new T I)) turnSync (fun a a' => a' = a ∧ a.length = 2)
      (Image syncStates syncStates limits cycled (fun _ => 1) (2 * Real.pi / 3))

theorem syncY_back (x : Fin (1 + 3) → ℝ) : ofSyncY (syncY x) = x := by
  funext i
  fin_cases i <;> rfl

theorem fresh_b6 (e : Equiv.Perm (Fin 3)) (T I : ℝ) : LegsMoved LegFine e (.b6 (B6.new T I)) (.b6 (B6.new T I)) :=
  ⟨_, _, rfl, rfl, fun k => by
    have h : ∀ k, legOf (B6.new T I) k = TwoQC.new T I := fun k => by fin_cases k <;> rfl
    rw [h, h]
    exact ⟨rfl, show (0 : ℕ) < 3 by norm_num⟩⟩

theorem fresh_cb6 (e : Equiv.Perm (Fin 3)) (T I : ℝ) : CLegsMoved e (.b6 (CB6.new T I)) (.b6 (CB6.new T I)) :=
  ⟨_, _, rfl, rfl, fun k => by
    have h : ∀ k, cLegOf (CB6.new T I) k = CTwo.new T I := fun k => by fin_cases k <;> rfl
    rw [h, h]⟩

theorem sync_phases {torque : (Fin 3 → ℝ) → ℝ} {ode : (Fin 3 → ℝ) → (Fin 2 → ℝ) → ℝ → Fin 3 → ℝ}
    (ht : ∀ a b e e', torque ![a, b, e] = torque ![a, b, e'])
    (ho : ∀ a b e e' u w, ode ![a, b, e] u w = ode ![a, b, e'] u w) : SyncPhasesAlike torque ode := by
  intro P src load limits T I h1 hl
  have hrhs : ∀ u t x, drive torque ode load none (id u) t (blockMap 1 LinearMap.id x + Fin.append 0 ![0, 0, 2 * Real.pi / 3]) =
      blockMap 1 LinearMap.id (drive torque ode load none u t x) := by
    refine rhs_block (fun z => ?_) (fun z u w => ?_) (mech_same load)
    · rw [one_mul]
      have e1 : (LinearMap.id : (Fin 3 → ℝ) →ₗ[ℝ] _) z + ![0, 0, 2 * Real.pi / 3] = ![z 0, z 1, z 2 + 2 * Real.pi / 3] := by
        funext i; fin_cases i <;> simp
      have e2 : z = ![z 0, z 1, z 2] := by funext i; fin_cases i <;> rfl
      rw [e1, ht _ _ _ (z 2), ← e2]
    · rw [one_mul]
      have e1 : (LinearMap.id : (Fin 3 → ℝ) →ₗ[ℝ] _) z + ![0, 0, 2 * Real.pi / 3] = ![z 0, z 1, z 2 + 2 * Real.pi / 3] := by
        funext i; fin_cases i <;> simp
      have e2 : z = ![z 0, z 1, z 2] := by funext i; fin_cases i <;> rfl
      rw [e1, ho _ _ _ (z 2), ← e2]
      rfl
  have hm := funext turnSync_eq
  refine ⟨sameCourse_of ⟨h1, b6_twin cyc, ?_, syncY_back, hrhs⟩ (fresh_b6 cyc T I) turnSync_eq,
    sameCourse_of ⟨h1, cb6_twin cyc, ?_, syncY_back, hrhs⟩ (fresh_cb6 cyc T I) turnSync_eq,
    sameCourse_of ⟨h1, cb6_twin cyc, ?_, syncY_back, hrhs⟩ (fresh_cb6 cyc T I) turnSync_eq⟩
  · rw [hm]
    exact sync_frames_turn (f := _) ht (by exact ⟨rfl, rfl, rfl, rfl⟩) hl fun _ _ _ h => h
  · rw [hm]
    exact sync_frames_turn (f := _) ht (by exact ⟨rfl, rfl, rfl, rfl⟩) hl fun _ _ _ h => h
  · rw [hm]
    refine sync_frames_turn ht (by exact ⟨rfl, rfl, rfl, rfl⟩) hl ?_
    rintro x _ a ⟨rfl, hlen⟩
    match a, hlen with
    | [d, q], _ =>
      refine ⟨dqToAbc ![d, q] (x 3), ?_, ?_⟩
      · exact l3_ofFn _
      · rw [← dqToAbc_turn]
        exact l3_ofFn _

/-- C135 for PMSM and SynRM. -/
theorem c135_sync (mp : SyncParams ℝ) : SyncPhasesAlike (pmsmTorque mp) (syncOde (pmsmConstants mp)) ∧
    SyncPhasesAlike (synrmTorque mp) (syncOde (synrmConstants mp)) :=
  ⟨sync_phases (fun _ _ _ _ => rfl) (fun _ _ _ _ _ _ => rfl), sync_phases (fun _ _ _ _ => rfl) (fun _ _ _ _ _ _ => rfl)⟩

/-! ## Induction motors -/

/-- the names of the states of squirrel cage motor systems -/
def scimStates : List String := scimNames ["omega"]

theorem scimStates_eq : scimStates =
    ["omega", "torque", "i_sa", "i_sb", "i_sc", "i_sd", "i_sq", "u_sa", "u_sb", "u_sc", "u_sd", "u_sq", "epsilon", "u_sup"] := rfl

/-- those that do not depend on the angle of the flux -/
def scimFixed : List String := ["omega", "torque", "i_sa", "i_sb", "i_sc", "u_sa", "u_sb", "u_sc", "epsilon", "u_sup"]

/-- names after the cyclic interchange -/
def cycledIm (n : String) : String :=
  if n = "i_sa" then "i_sc" else if n = "i_sb" then "i_sa" else if n = "i_sc" then "i_sb"
  else if n = "u_sa" then "u_sc" else if n = "u_sb" then "u_sa" else if n = "u_sc" then "u_sb"
  else if n = "i_ra" then "i_rc" else if n = "i_rb" then "i_ra" else if n = "i_rc" then "i_rb"
  else if n = "u_ra" then "u_rc" else if n = "u_rb" then "u_ra" else if n = "u_rc" then "u_rb" else n

/-- currents and flux, turned by a third -/
def turnEl : (Fin 5 → ℝ) →ₗ[ℝ] Fin 5 → ℝ where
  toFun z := ![q ![z 0, z 1] (2 * Real.pi / 3) 0, q ![z 0, z 1] (2 * Real.pi / 3) 1, q ![z 2, z 3] (2 * Real.pi / 3) 0,
    q ![z 2, z 3] (2 * Real.pi / 3) 1, z 4]
  map_add' x y := by
    funext i
    fin_cases i <;> simp [q] <;> ring
  map_smul' c x := by
    funext i
    fin_cases i <;> simp [q] <;> ring

/-- the state of the solver, turned -/
def turnIm (x : Fin (1 + 5) → ℝ) : Fin (1 + 5) → ℝ :=
  ![x 0, q ![x 1, x 2] (2 * Real.pi / 3) 0, q ![x 1, x 2] (2 * Real.pi / 3) 1, q ![x 3, x 4] (2 * Real.pi / 3) 0,
    q ![x 3, x 4] (2 * Real.pi / 3) 1, x 5]

theorem turnIm_eq (x : Fin (1 + 5) → ℝ) : blockMap 1 turnEl x + Fin.append 0 0 = turnIm x := by
  funext i
  fin_cases i <;> simp [blockMap, turnIm, turnEl, Fin.append, Fin.addCases, Fin.subNat]

theorem imY_back (x : Fin (1 + 5) → ℝ) : ofImY (imY x) = x := by
  funext i
  fin_cases i <;> rfl

theorem imY_turn (x : Fin (1 + 5) → ℝ) :
    imY (turnIm x) = ⟨[x 0], q ![x 1, x 2] (2 * Real.pi / 3), q ![x 3, x 4] (2 * Real.pi / 3), x 5⟩ := by
  simp [imY, turnIm, two_eta]

theorem im_torque_turn (mp : ImParams ℝ) (z : Fin 5 → ℝ) : imTorque mp (turnEl z) = imTorque mp z := by
  have h3 : √3 * √3 = (3 : ℝ) := Real.mul_self_sqrt (by norm_num)
  simp only [imTorque, turnEl, LinearMap.coe_mk, AddHom.coe_mk, q, cos_twoThirdsPi, sin_twoThirdsPi, Matrix.cons_val]
  linear_combination (3 / 2 * mp.p * mp.lm / (mp.lm + mp.lsigr) * (z 2 * z 1 - z 3 * z 0) / 4) * h3

theorem im_ode_turn (mp : ImParams ℝ) (z : Fin 5 → ℝ) (us ur : Fin 2 → ℝ) (w : ℝ) :
    imOde mp (turnEl z) !![q us (2 * Real.pi / 3) 0, q us (2 * Real.pi / 3) 1; q ur (2 * Real.pi / 3) 0, q ur (2 * Real.pi / 3) 1] w =
      turnEl (imOde mp z !![us 0, us 1; ur 0, ur 1] w) := by
  funext i
  fin_cases i <;>
    simp [imOde, imConstants, turnEl, q, Matrix.mulVec, dotProduct, Fin.sum_univ_succ] <;> ring

/-- the torque of an induction motor system -/
def imTq (mp : ImParams ℝ) (y : ImY) : ℝ := imTorque mp ![y.i 0, y.i 1, y.psi 0, y.psi 1, y.eps]

theorem imTq_turn (mp : ImParams ℝ) (x : Fin (1 + 5) → ℝ) : imTq mp (imY (turnIm x)) = imTq mp (imY x) := by
  have h := im_torque_turn mp ![x 1, x 2, x 3, x 4, x 5]
  rw [imY_turn]
  exact h

/-- the phases do not depend on the angle of the coordinates -/
theorem phases_free (i : Fin 2 → ℝ) (e : ℝ) : dqToAbc (qInv i e) e = t32 i := by
  unfold dqToAbc qInv
  rw [c32_q_add, neg_add_cancel]
  congr 1
  funext k
  fin_cases k <;> simp [q]

theorem scim_image_turn {limits : List ℝ} (hl : EvenLimits scimStates scimFixed limits cycledIm) (om T : ℝ) (i : Fin 3 → ℝ)
    (idq idq' : Fin 2 → ℝ) (w : Fin 3 → ℝ) (udq udq' : Fin 2 → ℝ) (e v : ℝ) :
    Echo (Image scimStates scimFixed limits cycledIm (fun _ => 1) 0)
      (divLimits ([om] ++ [T] ++ l3 i ++ l2 idq ++ List.ofFn w ++ l2 udq ++ [e] ++ [v]) limits)
      (divLimits ([om] ++ [T] ++ l3 (i ∘ cyc) ++ l2 idq' ++ List.ofFn (w ∘ cyc) ++ l2 udq' ++ [e] ++ [v]) limits) := by
  refine echo_image hl (by simp [scimStates_eq, l3, l2]) (by simp [scimStates_eq, l3, l2]) ?_ ?_
  · intro n hn hne
    simp only [scimFixed, List.mem_cons, List.not_mem_nil, or_false] at hn
    rcases hn with rfl | rfl | rfl | rfl | rfl | rfl | rfl | rfl | rfl | rfl <;>
      first
        | exact absurd rfl hne
        | simp [scimStates_eq, readState, cycledIm, l3, l2, cyc]
  · intro _
    exact ⟨0, by simp [scimStates_eq, readState, l3, l2]⟩

/-- a system that works as a squirrel cage motor system -/
structure LikeScim {A : Type} (tq : ImY → ℝ) (f : Frame ℝ ImY (Fin 2 → ℝ) A) : Prop where
  iIn : f.iIn = (scimFrame tq false).iIn
  action : ∀ y a, f.action y a = a
  loopU : f.loopU = (scimFrame tq false).loopU
  lastU : f.lastU = (scimFrame tq false).lastU
  report : f.report = (scimFrame tq false).report

theorem scim_frames_turn {A : Type} (mp : ImParams ℝ) {f : Frame ℝ ImY (Fin 2 → ℝ) A} (hf : LikeScim (imTq mp) f) {limits : List ℝ}
    (hl : EvenLimits scimStates scimFixed limits cycledIm) {asked : A → A → Prop} :
    Frames f (scimReset (imTq mp)) limits imY turnIm (fun w : Fin 3 → ℝ => w ∘ cyc) (fun u => q u (2 * Real.pi / 3)) asked asked
      (Image scimStates scimFixed limits cycledIm (fun _ => 1) 0) := by
  have hU : ∀ x (w : Fin 3 → ℝ), Echo (fun u u' => u' = q u (2 * Real.pi / 3))
      ((scimFrame (imTq mp) false).lastU (imY x) (List.ofFn w))
      ((scimFrame (imTq mp) false).lastU (imY (turnIm x)) (List.ofFn (w ∘ cyc))) := by
    intro x w
    simp only [scimFrame, three_ofFn, Except.map, t23_turn]
    rfl
  refine ⟨fun w v => rfl, fun x => ⟨t32 ![x 1, x 2], ?_, ?_⟩, ?_, ?_, ?_, ?_, ?_⟩
  · rw [hf.iIn]
    exact l3_ofFn _
  · rw [hf.iIn]
    simp only [scimFrame, imY_turn, t32_turn]
    exact l3_ofFn _
  · intro x a a' h
    rw [hf.action, hf.action]
    exact h
  · rw [hf.loopU]
    exact hU
  · rw [hf.lastU]
    exact hU
  · intro x z w v
    rw [hf.report]
    simp only [scimFrame, three_ofFn, Except.map, Except.bind, phases_free, imTq_turn]
    rw [show (imY (turnIm z)).mech = [z 0] from rfl, show (imY z).mech = [z 0] from rfl, show (imY (turnIm z)).eps = (imY z).eps from rfl,
      imY_turn, imY_turn, show (imY z).i = ![z 1, z 2] from rfl, t32_turn]
    exact scim_image_turn hl _ _ _ _ _ _ _ _ _ _
  · intro x w v
    simp only [scimReset, three_ofFn, Except.map, Except.bind, phases_free, imTq_turn]
    rw [show (imY (turnIm x)).mech = [x 0] from rfl, show (imY x).mech = [x 0] from rfl, show (imY (turnIm x)).eps = (imY x).eps from rfl,
      imY_turn, show (imY x).i = ![x 1, x 2] from rfl, t32_turn]
    exact scim_image_turn hl _ _ _ _ _ _ _ _ _ _

theorem im_rhs_turn (mp : ImParams ℝ) (load : AnyLoad) {U : Type} {onU : U → U} {us ur : U → Fin 2 → ℝ}
    (h1 : ∀ u, us (onU u) = q (us u) (2 * Real.pi / 3)) (h2 : ∀ u, ur (onU u) = q (ur u) (2 * Real.pi / 3)) (u : U) (t : ℝ)
    (x : Fin (1 + 5) → ℝ) :
    drive (imTorque mp) (fun x u w => imOde mp x !![us u 0, us u 1; ur u 0, ur u 1] w) load none (onU u) t (blockMap 1 turnEl x + Fin.append 0 0) =
      blockMap 1 turnEl (drive (imTorque mp) (fun x u w => imOde mp x !![us u 0, us u 1; ur u 0, ur u 1] w) load none u t x) := by
  refine rhs_block (fun z => ?_) (fun z u w => ?_) (mech_same load) u t x
  · rw [add_zero, one_mul, im_torque_turn]
  · rw [add_zero, one_mul, h1, h2, im_ode_turn]

/-- C135 for the squirrel cage motor: currents, voltages of the phases, torque, speed and angle of the rotor. -/
theorem c135_scim_partial (mp : ImParams ℝ) {P : Type} (src : Source P) (load : AnyLoad) (limits : List ℝ) (T I : ℝ) (h1 : OneVoltage src)
    (hl : EvenLimits scimStates scimFixed limits cycledIm) :
    SameCourse finitePower src load load (imTorque mp) (scimOde mp) imY ofImY (asIs (scimFrame (imTq mp) false)) (scimReset (imTq mp)) limits
      (.b6 (B6.new T I)) turnIm (SwitchesMoved cyc) (Image scimStates scimFixed limits cycledIm (fun _ => 1) 0) ∧
    SameCourse contPower src load load (imTorque mp) (scimOde mp) imY ofImY (scimFrame (imTq mp) false) (scimReset (imTq mp)) limits
      (.b6 (CB6.new T I)) turnIm (DutiesMoved cyc) (Image scimStates scimFixed limits cycledIm (fun _ => 1) 0) := by
  have hm := funext turnIm_eq
  have hrhs := im_rhs_turn mp load (U := Fin 2 → ℝ) (onU := fun u => q u (2 * Real.pi / 3)) (us := id) (ur := fun _ => 0) (fun _ => rfl)
    (fun _ => by funext i; fin_cases i <;> simp [q])
  refine ⟨sameCourse_of ⟨h1, b6_twin cyc, ?_, imY_back, hrhs⟩ (fresh_b6 cyc T I) turnIm_eq,
    sameCourse_of ⟨h1, cb6_twin cyc, ?_, imY_back, hrhs⟩ (fresh_cb6 cyc T I) turnIm_eq⟩
  · rw [hm]
    exact scim_frames_turn mp (by exact ⟨rfl, fun _ _ => rfl, rfl, rfl, rfl⟩) hl
  · rw [hm]
    exact scim_frames_turn mp (by exact ⟨rfl, fun _ _ => rfl, rfl, rfl, rfl⟩) hl

/-- the names of the states of doubly fed motor systems -/
def dfimStates : List String := dfimNames ["omega"]

theorem dfimStates_eq : dfimStates = ["omega", "torque", "i_sa", "i_sb", "i_sc", "i_sd", "i_sq", "i_ra", "i_rb", "i_rc", "i_rd", "i_rq",
    "u_sa", "u_sb", "u_sc", "u_sd", "u_sq", "u_ra", "u_rb", "u_rc", "u_rd", "u_rq", "epsilon", "u_sup"] := rfl

/-- those that do not depend on the angle of the flux -/
def dfimFixed : List String := ["omega", "torque", "i_sa", "i_sb", "i_sc", "i_ra", "i_rb", "i_rc", "u_sa", "u_sb", "u_sc", "u_ra", "u_rb",
  "u_rc", "epsilon", "u_sup"]

theorem dfim_image_turn {limits : List ℝ} (hl : EvenLimits dfimStates dfimFixed limits cycledIm) (om T : ℝ) (i r w wr : Fin 3 → ℝ)
    (idq idq' rdq rdq' udq udq' vdq vdq' : Fin 2 → ℝ) (e v : ℝ) :
    Echo (Image dfimStates dfimFixed limits cycledIm (fun _ => 1) 0)
      (divLimits ([om] ++ [T] ++ l3 i ++ l2 idq ++ l3 r ++ l2 rdq ++ l3 w ++ l2 udq ++ l3 wr ++ l2 vdq ++ [e] ++ [v]) limits)
      (divLimits ([om] ++ [T] ++ l3 (i ∘ cyc) ++ l2 idq' ++ l3 (r ∘ cyc) ++ l2 rdq' ++ l3 (w ∘ cyc) ++ l2 udq' ++ l3 (wr ∘ cyc) ++ l2 vdq' ++
        [e] ++ [v]) limits) := by
  refine echo_image hl (by simp [dfimStates_eq, l3, l2]) (by simp [dfimStates_eq, l3, l2]) ?_ ?_
  · intro n hn hne
    simp only [dfimFixed, List.mem_cons, List.not_mem_nil, or_false] at hn
    rcases hn with rfl | rfl | rfl | rfl | rfl | rfl | rfl | rfl | rfl | rfl | rfl | rfl | rfl | rfl | rfl | rfl <;>
      first
        | exact absurd rfl hne
        | simp [dfimStates_eq, readState, cycledIm, l3, l2, cyc]
  · intro _
    exact ⟨0, by simp [dfimStates_eq, readState, l3, l2]⟩

theorem rotor_turn (lm lsigr : ℝ) (x : Fin (1 + 5) → ℝ) :
    rotorCurrent lm lsigr (imY (turnIm x)) = q (rotorCurrent lm lsigr (imY x)) (2 * Real.pi / 3) := by
  rw [imY_turn]
  funext i
  fin_cases i <;> simp [rotorCurrent, imY, q] <;> ring

/-- the phases of the rotor turn with it -/
theorem rotor_phases (i : Fin 2 → ℝ) (f e : ℝ) : dqToAbc (qInv i f) (f - e) = t32 (q i (-e)) := by
  unfold dqToAbc qInv
  rw [c32_q_add]
  congr 2
  ring

theorem rotor_input (w : Fin 3 → ℝ) (f e : ℝ) : q (abcToDq w (f - e)) f = q (t23 w) e := by
  unfold abcToDq qInv
  rw [c32_q_add]
  congr 1
  ring

theorem q_swap (v : Fin 2 → ℝ) (a b : ℝ) : q (q v a) b = q (q v b) a := by
  rw [c32_q_add, c32_q_add, add_comm]

/-- six voltages, three for the stator and three for the rotor -/
theorem six_parts (w : Fin (3 + 3) → ℝ) : ((List.ofFn w).drop 0).take 3 = List.ofFn (fun k : Fin 3 => w (Fin.castAdd 3 k)) ∧
    ((List.ofFn w).drop 3).take 3 = List.ofFn (fun k : Fin 3 => w (Fin.natAdd 3 k)) := by
  rw [append_parts w]
  generalize (fun k => w (Fin.castAdd 3 k)) = a
  generalize (fun k => w (Fin.natAdd 3 k)) = b
  have h := take_parts a b
  simp only [Fin.append_left, Fin.append_right, List.drop_zero]
  refine ⟨h.1, ?_⟩
  rw [h.2, List.take_of_length_le (by simp)]

/-- a system that works as a doubly fed motor system -/
structure LikeDfim {A : Type} (mp : ImParams ℝ) (f : Frame ℝ ImY ((Fin 2 → ℝ) × (Fin 2 → ℝ)) A) : Prop where
  iIn : f.iIn = (dfimFrame mp.lm mp.lsigr (imTq mp)).iIn
  action : ∀ y a, f.action y a = a
  loopU : f.loopU = dfimU
  lastU : f.lastU = dfimU
  report : f.report = (dfimFrame mp.lm mp.lsigr (imTq mp)).report

/-- the phases of stator and rotor -/
def cycSix : (Fin (3 + 3) → ℝ) → Fin (3 + 3) → ℝ := onBoth (fun w => w ∘ cyc) (fun w => w ∘ cyc)

theorem cycSix_parts (w : Fin (3 + 3) → ℝ) : (fun k : Fin 3 => cycSix w (Fin.castAdd 3 k)) = (fun k => w (Fin.castAdd 3 k)) ∘ cyc ∧
    (fun k : Fin 3 => cycSix w (Fin.natAdd 3 k)) = (fun k => w (Fin.natAdd 3 k)) ∘ cyc := by
  constructor <;> funext k <;> simp only [cycSix, onBoth, Fin.append_left, Fin.append_right, Function.comp]

theorem dfim_frames_turn {A : Type} (mp : ImParams ℝ) {f : Frame ℝ ImY ((Fin 2 → ℝ) × (Fin 2 → ℝ)) A} (hf : LikeDfim mp f)
    {limits : List ℝ} (hl : EvenLimits dfimStates dfimFixed limits cycledIm) {asked : A → A → Prop} :
    Frames f (dfimReset mp.lm mp.lsigr (imTq mp)) limits imY turnIm cycSix
      (fun u => (q u.1 (2 * Real.pi / 3), q u.2 (2 * Real.pi / 3))) asked asked
      (Image dfimStates dfimFixed limits cycledIm (fun _ => 1) 0) := by
  have hU : ∀ x (w : Fin (3 + 3) → ℝ), Echo (fun u u' => u' = (q u.1 (2 * Real.pi / 3), q u.2 (2 * Real.pi / 3)))
      (dfimU (imY x) (List.ofFn w)) (dfimU (imY (turnIm x)) (List.ofFn (cycSix w))) := by
    intro x w
    simp only [dfimU, (six_parts w).1, (six_parts w).2, (six_parts (cycSix w)).1, (six_parts (cycSix w)).2, cycSix_parts, three_ofFn,
      rotor_input]
    show _ = _
    rw [t23_turn, t23_turn, q_swap]
    rfl
  refine ⟨fun w v => ?_, fun x => ⟨Fin.append (t32 ![x 1, x 2]) (t32 (rotorCurrent mp.lm mp.lsigr (imY x))), ?_, ?_⟩, ?_, ?_, ?_, ?_, ?_⟩
  · funext k
    refine Fin.addCases (fun k => ?_) (fun k => ?_) k <;> simp only [cycSix, onBoth, Fin.append_left, Fin.append_right, Function.comp]
  · rw [hf.iIn, List.ofFn_fin_append, ← l3_ofFn, ← l3_ofFn]
    rfl
  · rw [hf.iIn]
    simp only [dfimFrame, rotor_turn, t32_turn]
    rw [cycSix, onBoth_append, List.ofFn_fin_append, ← l3_ofFn, ← l3_ofFn, imY_turn, t32_turn]
  · intro x a a' h
    rw [hf.action, hf.action]
    exact h
  · rw [hf.loopU]
    exact hU
  · rw [hf.lastU]
    exact hU
  · intro x z w v
    rw [hf.report]
    simp only [dfimFrame, (six_parts w).1, (six_parts w).2, (six_parts (cycSix w)).1, (six_parts (cycSix w)).2, cycSix_parts, three_ofFn,
      phases_free, rotor_phases, rotor_turn, imTq_turn]
    rw [show (imY (turnIm z)).mech = [z 0] from rfl, show (imY z).mech = [z 0] from rfl, show (imY (turnIm z)).eps = (imY z).eps from rfl,
      show (imY (turnIm x)).eps = (imY x).eps from rfl, q_swap, t32_turn, imY_turn z, show (imY z).i = ![z 1, z 2] from rfl, t32_turn]
    exact dfim_image_turn hl _ _ _ _ _ _ _ _ _ _ _ _ _ _ _ _
  · intro x w v
    simp only [dfimReset, (six_parts w).1, (six_parts w).2, (six_parts (cycSix w)).1, (six_parts (cycSix w)).2, cycSix_parts, three_ofFn,
      phases_free, rotor_turn, imTq_turn, t32_turn]
    rw [show (imY (turnIm x)).mech = [x 0] from rfl, show (imY x).mech = [x 0] from rfl, show (imY (turnIm x)).eps = (imY x).eps from rfl,
      imY_turn, show (imY x).i = ![x 1, x 2] from rfl, t32_turn]
    exact dfim_image_turn hl _ _ _ _ _ _ _ _ _ _ _ _ _ _ _ _

/-- C135 for the doubly fed motor, where the phases of the stator and those of the rotor are interchanged. -/
theorem c135_dfim_partial (mp : ImParams ℝ) {P : Type} (src : Source P) (load : AnyLoad) (limits : List ℝ) (T I T' I' : ℝ) (h1 : OneVoltage src)
    (hl : EvenLimits dfimStates dfimFixed limits cycledIm) :
    SameCourse finiteMulti src load load (imTorque mp) (fun x (u : (Fin 2 → ℝ) × (Fin 2 → ℝ)) w => imOde mp x !![u.1 0, u.1 1; u.2 0, u.2 1] w)
      imY ofImY (asIs (dfimFrame mp.lm mp.lsigr (imTq mp))) (dfimReset mp.lm mp.lsigr (imTq mp)) limits
      [.b6 (B6.new T I), .b6 (B6.new T' I')] turnIm (Both (SwitchesMoved cyc) (SwitchesMoved cyc))
      (Image dfimStates dfimFixed limits cycledIm (fun _ => 1) 0) ∧
    SameCourse contMulti src load load (imTorque mp) (fun x (u : (Fin 2 → ℝ) × (Fin 2 → ℝ)) w => imOde mp x !![u.1 0, u.1 1; u.2 0, u.2 1] w)
      imY ofImY (dfimFrame mp.lm mp.lsigr (imTq mp)) (dfimReset mp.lm mp.lsigr (imTq mp)) limits
      [.b6 (CB6.new T I), .b6 (CB6.new T' I')] turnIm (BothActions 3 3 (DutiesMoved cyc) (DutiesMoved cyc))
      (Image dfimStates dfimFixed limits cycledIm (fun _ => 1) 0) := by
  have hm := funext turnIm_eq
  have hrhs := im_rhs_turn mp load (U := (Fin 2 → ℝ) × (Fin 2 → ℝ))
    (onU := fun u => (q u.1 (2 * Real.pi / 3), q u.2 (2 * Real.pi / 3))) (us := Prod.fst) (ur := Prod.snd) (fun _ => rfl) (fun _ => rfl)
  have hd : ∀ c c' : FConv ℝ, LegsMoved LegFine cyc c c' → c.dim = 3 ∧ c'.dim = 3 := by
    rintro _ _ ⟨b, b', rfl, rfl, -⟩
    exact ⟨rfl, rfl⟩
  have hd' : ∀ c c' : CConv ℝ, CLegsMoved cyc c c' → c.dim = 3 ∧ c'.dim = 3 := by
    rintro _ _ ⟨b, b', rfl, rfl, -⟩
    exact ⟨rfl, rfl⟩
  refine ⟨sameCourse_of ⟨h1, multi_twin (b6_twin cyc) (b6_twin cyc) hd hd, ?_, imY_back, hrhs⟩
      ⟨_, _, _, _, rfl, rfl, fresh_b6 cyc T I, fresh_b6 cyc T' I'⟩ turnIm_eq,
    sameCourse_of ⟨h1, cmulti_twin (cb6_twin cyc) (cb6_twin cyc) hd' hd', ?_, imY_back, hrhs⟩
      ⟨_, _, _, _, rfl, rfl, fresh_cb6 cyc T I, fresh_cb6 cyc T' I'⟩ turnIm_eq⟩
  · rw [hm]
    exact dfim_frames_turn mp (by exact ⟨rfl, fun _ _ => rfl, rfl, rfl, rfl⟩) hl
  · rw [hm]
    exact dfim_frames_turn mp (by exact ⟨rfl, fun _ _ => rfl, rfl, rfl, rfl⟩) hl

/-! ## The externally excited synchronous motor -/

/-- the names of the states of EESM systems -/
def eesmStates : List String := eesmNames ["omega"]

theorem eesmStates_eq : eesmStates = ["omega", "torque", "i_a", "i_b", "i_c", "i_sd", "i_sq", "i_e", "u_a", "u_b", "u_c", "u_sd", "u_sq", "u_e",
    "epsilon", "u_sup"] := rfl

/-- the angle, turned by a third -/
def turnEesm (x : Fin (1 + 4) → ℝ) : Fin (1 + 4) → ℝ := ![x 0, x 1, x 2, x 3, x 4 + 2 * Real.pi / 3]

theorem turnEesm_eq (x : Fin (1 + 4) → ℝ) : blockMap 1 LinearMap.id x + Fin.append 0 ![0, 0, 0, 2 * Real.pi / 3] = turnEesm x := by
  funext i
  fin_cases i <;> simp [blockMap, turnEesm, Fin.append, Fin.addCases, Fin.subNat]

theorem eesmY_back (x : Fin (1 + 4) → ℝ) : ofEesmY (eesmY x) = x := by
  funext i
  fin_cases i <;> rfl

theorem eesmY_turn (x : Fin (1 + 4) → ℝ) : eesmY (turnEesm x) = ⟨[x 0], ![x 1, x 2], x 3, x 4 + 2 * Real.pi / 3⟩ := rfl

/-- the torque of an EESM system -/
def eesmTq (ee : EesmParams ℝ) (y : EesmY) : ℝ := eesmTorque ee ![y.i 0, y.i 1, y.ie, y.eps]

theorem eesm_image_turn {limits : List ℝ} (hl : EvenLimits eesmStates eesmStates limits cycled) (om T : ℝ) (i : Fin 3 → ℝ) (idq : Fin 2 → ℝ)
    (w : Fin 3 → ℝ) (ie x y z e e' v : ℝ) (he : ∃ k : ℤ, e' = e + 2 * Real.pi / 3 + 2 * Real.pi * k) :
    Echo (Image eesmStates eesmStates limits cycled (fun _ => 1) (2 * Real.pi / 3))
      (divLimits ([om] ++ [T] ++ l3 i ++ l2 idq ++ [ie] ++ List.ofFn w ++ [x, y, z] ++ [e] ++ [v]) limits)
      (divLimits ([om] ++ [T] ++ l3 (i ∘ cyc) ++ l2 idq ++ [ie] ++ List.ofFn (w ∘ cyc) ++ [x, y, z] ++ [e'] ++ [v]) limits) := by
  refine echo_image hl (by simp [eesmStates_eq, l3, l2]) (by simp [eesmStates_eq, l3, l2]) ?_ ?_
  · intro n hn hne
    rw [eesmStates_eq] at hn
    simp only [List.mem_cons, List.not_mem_nil, or_false] at hn
    rcases hn with rfl | rfl | rfl | rfl | rfl | rfl | rfl | rfl | rfl | rfl | rfl | rfl | rfl | rfl | rfl | rfl <;>
      first
        | exact absurd rfl hne
        | simp [eesmStates_eq, readState, cycled, l3, l2, cyc]
  · intro _
    obtain ⟨k, hk⟩ := he
    refine ⟨k, ?_⟩
    simp [eesmStates_eq, readState, l3, l2, hk]

/-- three phases and the excitation -/
def cycThree : (Fin (3 + 1) → ℝ) → Fin (3 + 1) → ℝ := onBoth (fun w => w ∘ cyc) (fun w => w)

theorem four_parts (w : Fin (3 + 1) → ℝ) : List.ofFn w = List.ofFn (fun k : Fin 3 => w (Fin.castAdd 1 k)) ++ [w 3] := by
  have h3 : w 3 = w (Fin.natAdd 3 0) := rfl
  rw [h3, append_parts w]
  generalize (fun k => w (Fin.castAdd 1 k)) = a
  generalize (fun k => w (Fin.natAdd 3 k)) = b
  simp only [Fin.append_left, Fin.append_right]
  rw [List.ofFn_fin_append]
  simp

theorem parts_take (w : Fin 3 → ℝ) (l : List ℝ) : (List.ofFn w ++ l).take 3 = List.ofFn w := List.take_left' (by simp)
theorem parts_drop (w : Fin 3 → ℝ) (l : List ℝ) : (List.ofFn w ++ l).drop 3 = l := List.drop_left' (by simp)

theorem cycThree_parts (w : Fin (3 + 1) → ℝ) : (fun k : Fin 3 => cycThree w (Fin.castAdd 1 k)) = (fun k => w (Fin.castAdd 1 k)) ∘ cyc ∧
    cycThree w 3 = w 3 := by
  have h3 : ∀ w : Fin (3 + 1) → ℝ, w 3 = w (Fin.natAdd 3 0) := fun _ => rfl
  constructor
  · funext k
    simp [cycThree, onBoth]
  · rw [h3 (cycThree w), h3 w]
    simp only [cycThree, onBoth, Fin.append_right]

/-- a system that works as an EESM system -/
structure LikeEesm {A : Type} (tq : EesmY → ℝ) (f : Frame ℝ EesmY (List ℝ) A) : Prop where
  iIn : f.iIn = (eesmFrame tq).iIn
  action : ∀ y a, f.action y a = a
  loopU : f.loopU = (eesmFrame tq).loopU
  lastU : f.lastU = (eesmFrame tq).lastU
  report : f.report = (eesmFrame tq).report

theorem three_short (w : Fin (3 + 1) → ℝ) : three ((List.ofFn w).take 2) = .error .value := by
  simp [List.ofFn_succ, three]

theorem eesm_frames_turn {A : Type} (ee : EesmParams ℝ) {f : Frame ℝ EesmY (List ℝ) A} (hf : LikeEesm (eesmTq ee) f) {limits : List ℝ}
    (hl : EvenLimits eesmStates eesmStates limits cycled) {asked : A → A → Prop} :
    Frames f (eesmReset (eesmTq ee)) limits eesmY turnEesm cycThree id asked asked
      (Image eesmStates eesmStates limits cycled (fun _ => 1) (2 * Real.pi / 3)) := by
  refine ⟨fun w v => ?_, fun x => ⟨Fin.append (dqToAbc ![x 1, x 2] (x 4)) fun _ => x 3, ?_, ?_⟩, ?_, ?_, ?_, ?_, ?_⟩
  · funext k
    refine Fin.addCases (fun k => ?_) (fun k => ?_) k <;> simp only [cycThree, onBoth, Fin.append_left, Fin.append_right, Function.comp]
  · rw [hf.iIn, List.ofFn_fin_append, ← l3_ofFn]
    rfl
  · rw [hf.iIn]
    simp only [eesmFrame, eesmY_turn, dqToAbc_turn]
    rw [cycThree, onBoth_append, List.ofFn_fin_append, ← l3_ofFn]
    rfl
  · intro x a a' h
    rw [hf.action, hf.action]
    exact h
  · intro x w
    rw [hf.loopU]
    simp only [eesmFrame, three_short, Except.map]
    rfl
  · intro x w
    rw [hf.lastU]
    simp only [eesmFrame, four_parts w, four_parts (cycThree w), parts_take, parts_drop, three_ofFn, cycThree_parts, eesmY_turn, Except.map, abcToDq_turn]
    rfl
  · intro x z w v
    rw [hf.report]
    simp only [eesmFrame, four_parts w, four_parts (cycThree w), parts_take, parts_drop, three_ofFn, cycThree_parts, eesmY_turn, Except.map, Except.bind, abcToDq_turn, dqToAbc_turn]
    obtain ⟨k, hk⟩ := wrap_turns (z 4)
    obtain ⟨k', hk'⟩ := wrap_turns (z 4 + 2 * Real.pi / 3)
    have h := eesm_image_turn hl (z 0) (eesmTq ee (eesmY z)) (dqToAbc (eesmY z).i (eesmY x).eps) (eesmY z).i
      (fun k => w (Fin.castAdd 1 k)) (z 3) (abcToDq (fun k => w (Fin.castAdd 1 k)) (eesmY x).eps 0)
      (abcToDq (fun k => w (Fin.castAdd 1 k)) (eesmY x).eps 1) (w 3) (wrap (z 4)) (wrap (z 4 + 2 * Real.pi / 3)) v
      ⟨k' - k, by rw [hk', hk]; push_cast; ring⟩
    simp only [l2, List.append_assoc, List.cons_append, List.nil_append] at h ⊢
    exact h
  · intro x w v
    obtain ⟨k, hk⟩ := wrapReset_turns (x 4)
    obtain ⟨k', hk'⟩ := wrapReset_turns (x 4 + 2 * Real.pi / 3)
    have h1 : wrapReset (eesmY x).eps = x 4 + 2 * Real.pi * k := hk
    have h := eesm_image_turn hl (x 0) (eesmTq ee (eesmY x)) (dqToAbc (eesmY x).i (x 4)) (eesmY x).i
      (fun k => w (Fin.castAdd 1 k)) (x 3) (w 3) (abcToDq (fun k => w (Fin.castAdd 1 k)) (x 4) 0)
      (abcToDq (fun k => w (Fin.castAdd 1 k)) (x 4) 1) (x 4 + 2 * Real.pi * k) (x 4 + 2 * Real.pi / 3 + 2 * Real.pi * k') v
      ⟨k' - k, by push_cast; ring⟩
    simp only [eesmReset, four_parts w, four_parts (cycThree w), parts_take, three_ofFn,
      cycThree_parts, eesmY_turn, Except.map, Except.bind, hk', h1, abcToDq_fullTurns, dqToAbc_turns, abcToDq_turn, dqToAbc_turn]
    simp only [l2, List.append_assoc, List.cons_append, List.nil_append] at h ⊢
    exact h

/-- C135 for the externally excited synchronous motor; the converter of the excitation may be any with one voltage. -/
theorem c135_eesm (ee : EesmParams ℝ) {P : Type} (src : Source P) (load : AnyLoad) (limits : List ℝ) (T I : ℝ) (h1 : OneVoltage src)
    (hl : EvenLimits eesmStates eesmStates limits cycled) (ex : FConv ℝ) (hx : AllLegs LegFine ex) (cx : CConv ℝ) (hc : cx.dim = 1) :
    SameCourse finiteMulti src load load (eesmTorque ee) (fun x (u : List ℝ) w => eesmOde ee x (fun i => u.getD i 0) w) eesmY ofEesmY
      (asIs (eesmFrame (eesmTq ee))) (eesmReset (eesmTq ee)) limits [.b6 (B6.new T I), ex] turnEesm
      (Both (SwitchesMoved cyc) fun a a' => a = a' ∧ a < ex.nActions) (Image eesmStates eesmStates limits cycled (fun _ => 1) (2 * Real.pi / 3)) ∧
    SameCourse contMulti src load load (eesmTorque ee) (fun x (u : List ℝ) w => eesmOde ee x (fun i => u.getD i 0) w) eesmY ofEesmY
      (eesmFrame (eesmTq ee)) (eesmReset (eesmTq ee)) limits [.b6 (CB6.new T I), cx] turnEesm
      (BothActions 3 1 (DutiesMoved cyc) fun a a' => a = a' ∧ a.length = 1)
      (Image eesmStates eesmStates limits cycled (fun _ => 1) (2 * Real.pi / 3)) := by
  have hm := funext turnEesm_eq
  have hrhs : ∀ (u : List ℝ) t x, drive (eesmTorque ee) (fun x (u : List ℝ) w => eesmOde ee x (fun i => u.getD i 0) w) load none (id u) t
      (blockMap 1 LinearMap.id x + Fin.append 0 ![0, 0, 0, 2 * Real.pi / 3]) =
      blockMap 1 LinearMap.id (drive (eesmTorque ee) (fun x (u : List ℝ) w => eesmOde ee x (fun i => u.getD i 0) w) load none u t x) := by
    refine rhs_block (fun z => ?_) (fun z u w => ?_) (mech_same load)
    · rw [one_mul]
      simp [eesmTorque]
    · rw [one_mul]
      simp [eesmOde]
  have hd : ∀ c c' : FConv ℝ, LegsMoved LegFine cyc c c' → c.dim = 3 ∧ c'.dim = 3 := by
    rintro _ _ ⟨b, b', rfl, rfl, -⟩
    exact ⟨rfl, rfl⟩
  have hd' : ∀ c c' : CConv ℝ, CLegsMoved cyc c c' → c.dim = 3 ∧ c'.dim = 3 := by
    rintro _ _ ⟨b, b', rfl, rfl, -⟩
    exact ⟨rfl, rfl⟩
  have hk : ∀ c c' : FConv ℝ, (c = c' ∧ c.nActions = ex.nActions ∧ AllLegs LegFine c) → c.dim = 1 ∧ c'.dim = 1 := by
    rintro c _ ⟨rfl, -, h⟩
    cases c with
    | b6 b => exact h.elim
    | _ => exact ⟨rfl, rfl⟩
  refine ⟨sameCourse_of ⟨h1, multi_twin (b6_twin cyc) (keep_twin ex.nActions) hd hk, ?_, eesmY_back, hrhs⟩
      ⟨_, _, _, _, rfl, rfl, fresh_b6 cyc T I, rfl, rfl, hx⟩ turnEesm_eq,
    sameCourse_of ⟨h1, cmulti_twin (cb6_twin cyc) ckeep_twin hd' (by rintro c _ ⟨rfl, h⟩; exact ⟨h, h⟩), ?_, eesmY_back, hrhs⟩
      ⟨_, _, _, _, rfl, rfl, fresh_cb6 cyc T I, rfl, hc⟩ turnEesm_eq⟩
  · rw [hm]
    exact eesm_frames_turn ee (by exact ⟨rfl, fun _ _ => rfl, rfl, rfl, rfl⟩) hl
  · rw [hm]
    exact eesm_frames_turn ee (by exact ⟨rfl, fun _ _ => rfl, rfl, rfl, rfl⟩) hl

/-! ## Field coordinates of induction motors -/

/-- the angle of the flux turns with it -/
theorem field_turn (x : Fin (1 + 5) → ℝ) (h : x 3 ≠ 0 ∨ x 4 ≠ 0) :
    ∃ k : ℤ, (imY (turnIm x)).field = (imY x).field + 2 * Real.pi / 3 + 2 * Real.pi * k := by
  have hne : (⟨x 3, x 4⟩ : ℂ) ≠ 0 := fun h0 => by
    have h1 := congrArg Complex.re h0
    have h2 := congrArg Complex.im h0
    simp only [Complex.zero_re, Complex.zero_im] at h1 h2
    exact h.elim (fun h => h h1) fun h => h h2
  have he : ∀ r : ℝ, (⟨q ![x 3, x 4] r 0, q ![x 3, x 4] r 1⟩ : ℂ) = ⟨x 3, x 4⟩ * (Complex.cos r + Complex.sin r * Complex.I) := by
    intro r
    rw [← Complex.ofReal_cos, ← Complex.ofReal_sin]
    apply Complex.ext
    · simp [q, -Complex.ofReal_cos, -Complex.ofReal_sin]; ring
    · simp [q, -Complex.ofReal_cos, -Complex.ofReal_sin]; ring
  have hn : (Complex.cos ↑(2 * Real.pi / 3) + Complex.sin ↑(2 * Real.pi / 3) * Complex.I : ℂ) ≠ 0 := by
    rw [← Complex.exp_mul_I]
    exact Complex.exp_ne_zero _
  have ha := Complex.arg_mul_coe_angle hne hn
  have hr := Complex.arg_cos_add_sin_mul_I_coe_angle ((2 * Real.pi / 3 : ℝ) : Real.Angle)
  rw [Real.Angle.cos_coe, Real.Angle.sin_coe, Complex.ofReal_cos, Complex.ofReal_sin] at hr
  rw [← he, hr, ← Real.Angle.coe_add] at ha
  obtain ⟨k, hk⟩ := Real.Angle.angle_eq_iff_two_pi_dvd_sub.1 ha
  refine ⟨k, ?_⟩
  rw [imY_turn]
  show Complex.arg _ = Complex.arg ⟨x 3, x 4⟩ + _ + _
  linarith

theorem qInv_turn (i : Fin 2 → ℝ) (f : ℝ) (k : ℤ) : qInv (q i (2 * Real.pi / 3)) (f + 2 * Real.pi / 3 + 2 * Real.pi * k) = qInv i f := by
  rw [qInv_turns]
  unfold qInv
  rw [c32_q_add]
  congr 1
  ring

/-- C135 for the field coordinates of the squirrel cage motor: if the flux does not vanish at the beginning of the step (at the reset), then
also the currents and voltages in field coordinates are the same. -/
theorem c135_scim_field (mp : ImParams ℝ) {limits : List ℝ} (hl : EvenLimits scimStates scimStates limits cycledIm) (x z : Fin (1 + 5) → ℝ)
    (h : x 3 ≠ 0 ∨ x 4 ≠ 0) (w : Fin 3 → ℝ) (v : ℝ) :
    Echo (Image scimStates scimStates limits cycledIm (fun _ => 1) 0)
      (((scimFrame (imTq mp) false).report (imY x) (imY z) (List.ofFn w) [v]).bind fun s => divLimits s limits)
      (((scimFrame (imTq mp) false).report (imY (turnIm x)) (imY (turnIm z)) (List.ofFn (w ∘ cyc)) [v]).bind fun s => divLimits s limits) ∧
    Echo (Image scimStates scimStates limits cycledIm (fun _ => 1) 0)
      ((scimReset (imTq mp) (imY x) (List.ofFn w) [v]).bind fun s => divLimits s limits)
      ((scimReset (imTq mp) (imY (turnIm x)) (List.ofFn (w ∘ cyc)) [v]).bind fun s => divLimits s limits) := by
  obtain ⟨k, hk⟩ := field_turn x h
  have key : ∀ (om T : ℝ) (i : Fin 3 → ℝ) (idq udq : Fin 2 → ℝ) (e : ℝ), Echo (Image scimStates scimStates limits cycledIm (fun _ => 1) 0)
      (divLimits ([om] ++ [T] ++ l3 i ++ l2 idq ++ List.ofFn w ++ l2 udq ++ [e] ++ [v]) limits)
      (divLimits ([om] ++ [T] ++ l3 (i ∘ cyc) ++ l2 idq ++ List.ofFn (w ∘ cyc) ++ l2 udq ++ [e] ++ [v]) limits) := by
    intro om T i idq udq e
    refine echo_image hl (by simp [scimStates_eq, l3, l2]) (by simp [scimStates_eq, l3, l2]) ?_ ?_
    · intro n hn hne
      simp only [scimStates_eq, List.mem_cons, List.not_mem_nil, or_false] at hn
      rcases hn with rfl | rfl | rfl | rfl | rfl | rfl | rfl | rfl | rfl | rfl | rfl | rfl | rfl | rfl <;>
        first
          | exact absurd rfl hne
          | simp [scimStates_eq, readState, cycledIm, l3, l2, cyc]
    · intro _
      exact ⟨0, by simp [scimStates_eq, readState, l3, l2]⟩
  constructor
  · simp only [scimFrame, three_ofFn, Except.map, Except.bind, phases_free, imTq_turn, hk, abcToDq_fullTurns, abcToDq_turn]
    rw [show (imY (turnIm z)).mech = [z 0] from rfl, show (imY z).mech = [z 0] from rfl, show (imY (turnIm z)).eps = (imY z).eps from rfl,
      imY_turn, show (imY z).i = ![z 1, z 2] from rfl, t32_turn, qInv_turn]
    exact key _ _ _ _ _ _
  · simp only [scimReset, three_ofFn, Except.map, Except.bind, phases_free, imTq_turn, hk, abcToDq_fullTurns, abcToDq_turn]
    rw [show (imY (turnIm x)).mech = [x 0] from rfl, show (imY x).mech = [x 0] from rfl, show (imY (turnIm x)).eps = (imY x).eps from rfl,
      imY_turn, show (imY x).i = ![x 1, x 2] from rfl, t32_turn, qInv_turn]
    exact key _ _ _ _ _ _

/-- Without flux they are not: the angle of the flux is then taken to be zero in both systems, so the current of phase a, flowing in phase b
instead, is not in the same direction of the coordinates. -/
theorem c135_scim_no_flux (mp : ImParams ℝ) : ∃ o o',
    ((scimReset (imTq mp) (imY ![0, 1, 0, 0, 0, 0]) [0, 0, 0] [1]).bind fun s => divLimits s (List.replicate 14 1)) = .ok o ∧
    ((scimReset (imTq mp) (imY (turnIm ![0, 1, 0, 0, 0, 0])) [0, 0, 0] [1]).bind fun s => divLimits s (List.replicate 14 1)) = .ok o' ∧
    readState scimStates o "i_sd" = 1 ∧ readState scimStates o' "i_sd" = -(1 / 2) := by
  have ha : Complex.arg ⟨0, 0⟩ = 0 := Complex.arg_zero
  have hf : (imY (turnIm ![0, 1, 0, 0, 0, 0])).field = 0 := by
    rw [imY_turn]
    simp [ImY.field, q, ha]
  have hf' : (imY ![0, 1, 0, 0, 0, 0]).field = 0 := by
    simp [ImY.field, imY, ha]
  refine ⟨_, _, rfl, rfl, ?_, ?_⟩
  · rw [hf']
    simp [scimStates_eq, readState, imY, l3, l2, qInv, q]
  · rw [hf, imY_turn]
    simp [scimStates_eq, readState, l3, l2, qInv, q, cos_twoThirdsPi]

/-! ## Examples -/

/-- the upper switch of phase a closed, or that of phase b; duty cycles -/
example : SwitchesMoved cyc 4 2 ∧ SwitchesMoved cyc 5 6 ∧ ¬ SwitchesMoved cyc 4 1 ∧ DutiesMoved cyc [1, 0, -1] [-1, 1, 0] := by
  refine ⟨⟨by norm_num, by norm_num, by decide⟩, ⟨by norm_num, by norm_num, by decide⟩, fun h => absurd (h.2.2 2) (by decide),
    ![1, 0, -1], by simp, by simp [cyc, List.ofFn_succ]⟩

theorem limits_sync : EvenLimits syncStates syncStates [100, 5, 20, 20, 20, 20, 20, 48, 48, 48, 48, 48, 3, 48] cycled := by
  refine ⟨rfl, ?_, fun _ => by simp [syncStates_eq, readState]⟩
  intro n hn
  simp only [syncStates_eq, List.mem_cons, List.not_mem_nil, or_false] at hn
  rcases hn with rfl | rfl | rfl | rfl | rfl | rfl | rfl | rfl | rfl | rfl | rfl | rfl | rfl | rfl <;>
    simp [syncStates_eq, readState, cycled]

/-- two steps of a PMSM with two switchings, and the same in the next phases -/
example (mp : SyncParams ℝ) (st : St ℝ (Euler ℝ (Fin (1 + 3) → ℝ)) (FConv ℝ) Unit) (hst : st.conv = .b6 (B6.new 1 (1 / 10))) :
    List.Forall₂ (Echo (Image syncStates syncStates [100, 5, 20, 20, 20, 20, 20, 48, 48, 48, 48, 48, 3, 48] cycled (fun _ => 1) (2 * Real.pi / 3)))
      (answers (eulerParts finitePower (idealSource 48) (.poly 0 1 2 3 1 []) (pmsmTorque mp) (syncOde (pmsmConstants mp)) none syncY ofSyncY)
        (asIs (syncFrame (syncTq (pmsmTorque mp)) false)) (syncReset (syncTq (pmsmTorque mp))) 1
        [100, 5, 20, 20, 20, 20, 20, 48, 48, 48, 48, 48, 3, 48] st [.inl (syncY ![10, 1, 2, 1]), .inr 4, .inr 5])
      (answers (eulerParts finitePower (idealSource 48) (.poly 0 1 2 3 1 []) (pmsmTorque mp) (syncOde (pmsmConstants mp)) none syncY ofSyncY)
        (asIs (syncFrame (syncTq (pmsmTorque mp)) false)) (syncReset (syncTq (pmsmTorque mp))) 1
        [100, 5, 20, 20, 20, 20, 20, 48, 48, 48, 48, 48, 3, 48] st [.inl (syncY ![10, 1, 2, 1 + 2 * Real.pi / 3]), .inr 2, .inr 6]) :=
  ((c135_sync mp).1 (idealSource 48) (.poly 0 1 2 3 1 []) _ 1 (1 / 10) (ideal_one 48) limits_sync).1 1 none none st st ![10, 1, 2, 1]
    [.inr 4, .inr 5] [.inr 2, .inr 6] hst hst rfl rfl
    (.cons (.step ⟨by norm_num, by norm_num, by decide⟩) (.cons (.step ⟨by norm_num, by norm_num, by decide⟩) .nil))

end

end GEM.Props
