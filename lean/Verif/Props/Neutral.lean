import Verif.Props.Holding
import Verif.Props.ClassicFeedforward

/-!
# C147: the potential of the star point

Three voltages that are raised by the same amount drive the same currents.  In particular the two switching states of the B6 bridge that connect
all phases with the same rail (actions 0 and 7) are interchangeable, so that nothing is lost by offering only seven actions to an agent.
-/

set_option linter.unusedSectionVars false

namespace GEM.Props

noncomputable section

open GEM GEM.Sys GEM.Conv GEM.Motor GEM.Solver GEM.Load

/-! ## Statement -/

/-- three values, all raised by the same amount -/
def RaisedTogether (w w' : Fin 3 → ℝ) : Prop := ∃ z : ℝ, ∀ k, w' k = w k + z

/-- three phases raised together and the same voltage of the excitation -/
def RaisedStator (w w' : Fin (3 + 1) → ℝ) : Prop :=
  RaisedTogether (fun k => w (Fin.castAdd 1 k)) (fun k => w' (Fin.castAdd 1 k)) ∧ w' 3 = w 3

/-- the phases of the stator raised together, and those of the rotor -/
def RaisedBoth (w w' : Fin (3 + 3) → ℝ) : Prop :=
  RaisedTogether (fun k => w (Fin.castAdd 3 k)) (fun k => w' (Fin.castAdd 3 k)) ∧
    RaisedTogether (fun k => w (Fin.natAdd 3 k)) (fun k => w' (Fin.natAdd 3 k))

/-- The same reset, or two legal actions with voltages related by `rel`. -/
def OpsRaised {n : ℕ} {Y A : Type} (rel : (Fin n → ℝ) → (Fin n → ℝ) → Prop) (legal : A → Prop) (out : A → Fin n → ℝ) : Y ⊕ A → Y ⊕ A → Prop
  | .inl y, .inl y' => y' = y
  | .inr a, .inr a' => legal a ∧ legal a' ∧ rel (out a) (out a')
  | _, _ => False

/-- Two copies of a system, each with any past, that are reset to the same state and then given actions with voltages related by `rel` (raised
together): they answer with the same values of the states `told`, in every sequence of steps and further resets. -/
def NeutralAlike {m n : ℕ} {Y U A C P : Type} (rel : (Fin n → ℝ) → (Fin n → ℝ) → Prop) (pw : Power A C) (out : A → Fin n → ℝ) (legal : A → Prop) (src : Source P) (load : AnyLoad)
    (torque : (Fin m → ℝ) → ℝ) (ode : (Fin m → ℝ) → U → ℝ → Fin m → ℝ) (toY : (Fin (1 + m) → ℝ) → Y) (ofY : Y → Fin (1 + m) → ℝ)
    (f : Frame ℝ Y U A) (rep : Y → List ℝ → List ℝ → Except Err (List ℝ)) (limits : List ℝ) (names told : List String) : Prop :=
  ∀ (d : ℝ) (w0 : Fin n → ℝ) (scratch : Option (Fin (1 + m) → ℝ)) (st st' : St ℝ (Euler ℝ (Fin (1 + m) → ℝ)) C P) (y : Y)
    (ops ops' : List (Y ⊕ A)), SetOnce pw st.conv d legal out w0 → SetOnce pw st'.conv d legal out w0 →
    st.solver.nsteps ≠ 0 → st'.solver.nsteps = st.solver.nsteps → List.Forall₂ (OpsRaised rel legal out) ops ops' →
    List.Forall₂ (Echo (SameIn names told)) (answers (eulerParts pw src load torque ode scratch toY ofY) f rep d limits st (.inl y :: ops))
      (answers (eulerParts pw src load torque ode scratch toY ofY) f rep d limits st' (.inl y :: ops'))

/-- all states of PMSM and SynRM systems but the voltages of the phases -/
def syncNeutral : List String := ["omega", "torque", "i_a", "i_b", "i_c", "i_sd", "i_sq", "u_sd", "u_sq", "epsilon", "u_sup"]

/-- all states of squirrel cage motor systems but the voltages of the phases -/
def scimNeutral : List String := ["omega", "torque", "i_sa", "i_sb", "i_sc", "i_sd", "i_sq", "u_sd", "u_sq", "epsilon", "u_sup"]

/-- all states of EESM systems but the voltages of the phases -/
def eesmNeutral : List String :=
  ["omega", "torque", "i_a", "i_b", "i_c", "i_sd", "i_sq", "i_e", "u_sd", "u_sq", "u_e", "epsilon", "u_sup"]

/-- all states of doubly fed motor systems but the voltages of the phases -/
def dfimNeutral : List String := ["omega", "torque", "i_sa", "i_sb", "i_sc", "i_sd", "i_sq", "i_ra", "i_rb", "i_rc", "i_rd", "i_rq", "u_sd", "u_sq",
  "u_rd", "u_rq", "epsilon", "u_sup"]

/-! ## Histories -/

section systems

variable {m n : ℕ} {rel : (Fin n → ℝ) → (Fin n → ℝ) → Prop} {Y U A C P : Type} {pw : Power A C} {src : Source P} {torque : (Fin m → ℝ) → ℝ} {ode : (Fin m → ℝ) → U → ℝ → Fin m → ℝ}
  {load : AnyLoad} {toY : (Fin (1 + m) → ℝ) → Y} {ofY : Y → Fin (1 + m) → ℝ} {f : Frame ℝ Y U A}
  {rep : Y → List ℝ → List ℝ → Except Err (List ℝ)} {limits : List ℝ} {v : ℝ} {legal : A → Prop} {names told : List String}

/-- What a system does with voltages that are raised together. -/
structure NeutralFrame {n : ℕ} (rel : (Fin n → ℝ) → (Fin n → ℝ) → Prop) (f : Frame ℝ Y U A) (limits : List ℝ) (toY : (Fin (1 + m) → ℝ) → Y) (names told : List String) : Prop where
  refl : ∀ w, rel w w
  scale : ∀ w w' (v : ℝ), rel w w' → rel (fun k => w k * v) (fun k => w' k * v)
  act : ∀ y a, f.action y a = a
  cur : ∀ x, ∃ i : Fin n → ℝ, f.iIn (toY x) = List.ofFn i
  last : ∀ x w, ∃ u, ∀ w', rel w w' → f.lastU (toY x) (List.ofFn w') = .ok u
  report : ∀ x z w w' v, rel w w' → Echo (SameIn names told) ((f.report (toY x) (toY z) (List.ofFn w) [v]).bind fun s => divLimits s limits)
    ((f.report (toY x) (toY z) (List.ofFn w') [v]).bind fun s => divLimits s limits)

theorem raised_refl (w : Fin 3 → ℝ) : RaisedTogether w w := ⟨0, fun _ => (add_zero _).symm⟩

theorem raised_scale (w w' : Fin 3 → ℝ) (v : ℝ) (h : RaisedTogether w w') : RaisedTogether (fun k => w k * v) (fun k => w' k * v) := by
  obtain ⟨z, hz⟩ := h
  exact ⟨z * v, fun k => by simp only [hz]; ring⟩

theorem neutral_of {out : A → Fin n → ℝ} (hf : NeutralFrame rel f limits toY names told) (hs : load.Static) (hv : FixedVoltage src v) :
    NeutralAlike rel pw out legal src load torque ode toY ofY f rep limits names told := by
  intro d w0 scratch st st' y ops ops' hc hc' hn hn' hops
  obtain ⟨D, M, all, holds, hR, hst, hM, h0⟩ := hc
  obtain ⟨D', M', all', holds', hR', hst', hM', h0'⟩ := hc'
  obtain ⟨p, hp⟩ : ∃ p, p = eulerParts pw src load torque ode scratch toY ofY := ⟨_, rfl⟩
  rw [← hp]
  have hr : ∀ (st st' : St ℝ (Euler ℝ (Fin (1 + m) → ℝ)) C P) y, (∃ δ, holds st.conv δ) → (∃ δ, holds' st'.conv δ) →
      st.solver.nsteps ≠ 0 → st'.solver.nsteps = st.solver.nsteps →
      Echo (SameIn names told) (reset p rep limits st y).2 (reset p rep limits st' y).2 ∧ (∃ δ, holds (reset p rep limits st y).1.conv δ) ∧
      (∃ δ, holds' (reset p rep limits st' y).1.conv δ) ∧ (reset p rep limits st y).1.solver.nsteps ≠ 0 ∧
      (reset p rep limits st y).1.solver.t = (reset p rep limits st y).1.t ∧
      (reset p rep limits st' y).1.solver = (reset p rep limits st y).1.solver ∧ (reset p rep limits st' y).1.t = (reset p rep limits st y).1.t := by
    rintro st st' y ⟨δ, hδ⟩ ⟨δ', hδ'⟩ e e'
    subst hp
    refine ⟨?_, ⟨δ, hR.2 _ _ hδ⟩, ⟨δ', hR'.2 _ _ hδ'⟩, e, rfl, ?_, rfl⟩
    · simp only [reset, eulerParts, hv.2, h0 _ _ hδ, h0' _ _ hδ', products_ofFn]
      exact echo_same _ _ _
    · simp only [reset, eulerParts, Euler.setInitialValue, e']
  have main : ∀ (ops ops' : List (Y ⊕ A)), List.Forall₂ (OpsRaised rel legal out) ops ops' → ∀ (st st' : St ℝ (Euler ℝ (Fin (1 + m) → ℝ)) C P),
      (∃ δ, holds st.conv δ) → (∃ δ, holds' st'.conv δ) → st.solver.nsteps ≠ 0 → st.solver.t = st.t → st'.solver = st.solver → st'.t = st.t →
      List.Forall₂ (Echo (SameIn names told)) (answers p f rep d limits st ops) (answers p f rep d limits st' ops') := by
    intro ops ops' h
    induction h with
    | nil => intro _ _ _ _ _ _ _ _; exact .nil
    | @cons o o' ops ops' ho _ ih =>
      intro st st' hst hst' e1 e2 e3 e4
      match o, o', ho with
      | .inl y, .inl y', ho =>
        obtain rfl : y' = y := ho
        obtain ⟨r1, r2, r3, r4, r5, r6, r7⟩ := hr st st' y' hst hst' e1 (by rw [e3])
        exact .cons r1 (ih _ _ r2 r3 r4 r5 r6 r7)
      | .inr a, .inr a', ho =>
        obtain ⟨l1, l2, hz⟩ := ho
        obtain ⟨a1, a2⟩ := hM a l1
        obtain ⟨b1, b2⟩ := hM' a' l2
        obtain ⟨δ, hδ⟩ := hst
        obtain ⟨δ', hδ'⟩ := hst'
        obtain ⟨i, hi⟩ := hf.cur st.solver.y
        have hw : rel (fun k => out a k * v) (fun k => out a' k * v) := hf.scale _ _ _ hz
        obtain ⟨u, hu⟩ := hf.last st.solver.y (fun k => out a k * v)
        obtain ⟨c1, p1, h1, h2⟩ := simulate_once (ode := ode) (torque := torque) (ofY := ofY) (scratch := scratch) (limits := limits) (d := d) hR hs hv
          hδ (hf.act _ a) a1 ⟨_, (a2 δ).1⟩ ((a2 δ).2 0 i) hi (hu _ (hf.refl _)) e1 e2
        obtain ⟨c2, p2, h3, h4⟩ := simulate_once (st := st') (u := u) (ode := ode) (torque := torque) (ofY := ofY) (scratch := scratch) (limits := limits)
          (d := d) hR' hs hv hδ' (hf.act _ a') b1 ⟨_, (b2 δ').1⟩ ((b2 δ').2 0 i) (by rw [e3]; exact hi) (by rw [e3]; exact hu _ hw) (by rw [e3]; exact e1)
          (by rw [e3, e4]; exact e2)
        rw [← hp] at h2 h4
        rw [e3, e4] at h4
        refine .cons ?_ (ih (simulate p f d limits st a).1 (simulate p f d limits st' a').1 ?_ ?_ ?_ ?_ ?_ ?_)
        · show Echo _ (simulate p f d limits st a).2 (simulate p f d limits st' a').2
          rw [h2, h4]
          exact hf.report _ _ _ _ _ hw
        · rw [h2]; exact ⟨_, h1⟩
        · rw [h4]; exact ⟨_, h3⟩
        · rw [h2]; exact e1
        · rw [h2]
        · rw [h2, h4]
        · rw [h2, h4]
  obtain ⟨r1, r2, r3, r4, r5, r6, r7⟩ := hr st st' y hst hst' hn hn'
  exact .cons r1 (main ops ops' hops _ _ r2 r3 r4 r5 r6 r7)

end systems

/-! ## Voltages -/

/-- The transformation into two coordinates forgets exactly what the three voltages have in common. -/
theorem c147_forgotten (w w' : Fin 3 → ℝ) : t23 w' = t23 w ↔ RaisedTogether w w' := by
  have s3 : √(3 : ℝ) ≠ 0 := by positivity
  constructor
  · intro h
    have h0 := congrFun h 0
    have h1 := congrFun h 1
    simp only [t23, Matrix.mulVec, dotProduct, Fin.sum_univ_succ, Matrix.smul_apply] at h0 h1
    simp at h0 h1
    have h2 : w' 1 - w' 2 = w 1 - w 2 := by
      refine mul_left_cancel₀ s3 ?_
      linarith
    refine ⟨w' 0 - w 0, fun k => ?_⟩
    fin_cases k
    · simp
    · show w' 1 = w 1 + _
      linarith
    · show w' 2 = w 2 + _
      linarith
  · rintro ⟨z, hz⟩
    obtain rfl : w' = fun k => w k + z := funext hz
    funext i
    fin_cases i
    · simp [t23, Matrix.mulVec, dotProduct, Fin.sum_univ_succ]; ring
    · simp [t23, Matrix.mulVec, dotProduct, Fin.sum_univ_succ]; ring

/-- Among the eight switching states only 0 and 7 give voltages raised together. -/
theorem c147_seven (a a' : ℕ) (h : a < 8) (h' : a' < 8) :
    RaisedTogether (b6Volt a) (b6Volt a') ↔ a' = a ∨ a = 0 ∧ a' = 7 ∨ a = 7 ∧ a' = 0 := by
  constructor
  · rintro ⟨z, hz⟩
    have h0 := hz 0
    have h1 := hz 1
    have h2 := hz 2
    by_contra hne
    interval_cases a <;> interval_cases a' <;> first
      | exact hne (by decide)
      | (simp [b6Volt, Nat.testBit] at h0 h1 h2; linarith)
  · rintro (rfl | ⟨rfl, rfl⟩ | ⟨rfl, rfl⟩)
    · exact raised_refl _
    · refine ⟨1, fun k => ?_⟩
      fin_cases k <;> simp [b6Volt, Nat.testBit] <;> norm_num
    · refine ⟨-1, fun k => ?_⟩
      fin_cases k <;> simp [b6Volt, Nat.testBit] <;> norm_num

/-- Duty cycles: those raised by the same amount give voltages raised together, as long as none is cut off. -/
theorem c147_duties (a : Fin 3 → ℝ) (z : ℝ) (h : ∀ k, -1 ≤ a k ∧ a k ≤ 1) (h' : ∀ k, -1 ≤ a k + z ∧ a k + z ≤ 1) :
    RaisedTogether (b6Duty (List.ofFn a)) (b6Duty (List.ofFn fun k => a k + z)) := by
  have cl : ∀ x : ℝ, -1 ≤ x ∧ x ≤ 1 → clip x (-1) 1 = x := fun x hx => by rw [clip, max_eq_left hx.1, min_eq_left hx.2]
  refine ⟨z / 2, fun k => ?_⟩
  have e : ∀ b : Fin 3 → ℝ, (List.ofFn b).getD k 0 = b k := fun b => by fin_cases k <;> simp [List.ofFn_succ]
  simp only [b6Duty, e, cl _ (h k), cl _ (h' k)]
  ring

/-! ## Drives -/

theorem abcToDq_raised {w w' : Fin 3 → ℝ} (h : RaisedTogether w w') (e : ℝ) : abcToDq w' e = abcToDq w e := by
  unfold abcToDq
  rw [(c147_forgotten w w').2 h]

theorem sync_neutral {A : Type} {tq : SyncY → ℝ} {f : Frame ℝ SyncY (Fin 2 → ℝ) A} (hf : LikeSync tq f) (ha : ∀ y a, f.action y a = a)
    (limits : List ℝ) : NeutralFrame (m := 3) RaisedTogether f limits syncY syncStates syncNeutral := by
  refine ⟨raised_refl, raised_scale, ha, fun x => ⟨dqToAbc ![x 1, x 2] (x 3), ?_⟩, fun x w => ⟨abcToDq w (x 3), fun w' h => ?_⟩, fun x z w w' v h => ?_⟩
  · rw [hf.iIn]
    exact l3_ofFn _
  · rw [hf.lastU]
    simp only [syncFrame, three_ofFn, Except.map, abcToDq_raised h]
    rfl
  · rw [hf.report]
    simp only [syncFrame, three_ofFn, Except.map, Except.bind, abcToDq_raised h]
    refine same_div (by simp [syncStates_eq, syncY, l3, l2]) (by simp [syncStates_eq, syncY, l3, l2]) fun n hn => ?_
    simp only [syncNeutral, List.mem_cons, List.not_mem_nil, or_false] at hn
    rcases hn with rfl | rfl | rfl | rfl | rfl | rfl | rfl | rfl | rfl | rfl | rfl <;> simp [syncStates_eq, readState, syncY, l3, l2]

theorem scim_neutral {A : Type} {tq : ImY → ℝ} {f : Frame ℝ ImY (Fin 2 → ℝ) A} (hf : LikeScim tq f) (limits : List ℝ) :
    NeutralFrame (m := 5) RaisedTogether f limits imY scimStates scimNeutral := by
  refine ⟨raised_refl, raised_scale, hf.action, fun x => ⟨t32 ![x 1, x 2], ?_⟩, fun x w => ⟨t23 w, fun w' h => ?_⟩, fun x z w w' v h => ?_⟩
  · rw [hf.iIn]
    exact l3_ofFn _
  · rw [hf.lastU]
    simp only [scimFrame, three_ofFn, Except.map, (c147_forgotten w w').2 h]
  · rw [hf.report]
    simp only [scimFrame, three_ofFn, Except.map, Except.bind, abcToDq_raised h]
    refine same_div (by simp [scimStates_eq, imY, l3, l2]) (by simp [scimStates_eq, imY, l3, l2]) fun n hn => ?_
    simp only [scimNeutral, List.mem_cons, List.not_mem_nil, or_false] at hn
    rcases hn with rfl | rfl | rfl | rfl | rfl | rfl | rfl | rfl | rfl | rfl | rfl <;> simp [scimStates_eq, readState, imY, l3, l2]

/-- C147 for PMSM and SynRM (any torque and equation). -/
theorem c147_sync {A C P : Type} (pw : Power A C) (out : A → Fin 3 → ℝ) (legal : A → Prop) (src : Source P) (load : AnyLoad)
    (torque : (Fin 3 → ℝ) → ℝ) (ode : (Fin 3 → ℝ) → (Fin 2 → ℝ) → ℝ → Fin 3 → ℝ) (limits : List ℝ) (v : ℝ) (hs : load.Static)
    (hv : FixedVoltage src v) (f : Frame ℝ SyncY (Fin 2 → ℝ) A) (hf : LikeSync (syncTq torque) f) (ha : ∀ y a, f.action y a = a) :
    NeutralAlike RaisedTogether pw out legal src load torque ode syncY ofSyncY f (syncReset (syncTq torque)) limits syncStates syncNeutral :=
  neutral_of (sync_neutral hf ha limits) hs hv

/-- C147 for the squirrel cage motor. -/
theorem c147_scim (mp : ImParams ℝ) {A C P : Type} (pw : Power A C) (out : A → Fin 3 → ℝ) (legal : A → Prop) (src : Source P) (load : AnyLoad)
    (limits : List ℝ) (v : ℝ) (hs : load.Static) (hv : FixedVoltage src v) (f : Frame ℝ ImY (Fin 2 → ℝ) A) (hf : LikeScim (imTq mp) f) :
    NeutralAlike RaisedTogether pw out legal src load (imTorque mp) (scimOde mp) imY ofImY f (scimReset (imTq mp)) limits scimStates scimNeutral :=
  neutral_of (scim_neutral hf limits) hs hv

theorem eesm_neutral {A : Type} {tq : EesmY → ℝ} {f : Frame ℝ EesmY (List ℝ) A} (hf : LikeEesm tq f) (limits : List ℝ) :
    NeutralFrame (m := 4) RaisedStator f limits eesmY eesmStates eesmNeutral := by
  refine ⟨fun w => ⟨raised_refl _, rfl⟩, fun w w' v h => ⟨raised_scale _ _ v h.1, by simp only [h.2]⟩, hf.action,
    fun x => ⟨Fin.append (dqToAbc ![x 1, x 2] (x 4)) fun _ : Fin 1 => x 3, ?_⟩,
    fun x w => ⟨l2 (abcToDq (fun k => w (Fin.castAdd 1 k)) (x 4)) ++ [w 3], fun w' h => ?_⟩, fun x z w w' v h => ?_⟩
  · rw [hf.iIn, List.ofFn_fin_append, ← l3_ofFn]
    rfl
  · rw [hf.lastU]
    simp only [eesmFrame, four_parts w', parts_take, parts_drop, three_ofFn, Except.map, abcToDq_raised h.1, h.2]
    rfl
  · rw [hf.report]
    simp only [eesmFrame, four_parts w, four_parts w', parts_take, parts_drop, three_ofFn, Except.map, Except.bind, abcToDq_raised h.1, h.2]
    refine same_div (by simp [eesmStates_eq, eesmY, l3, l2]) (by simp [eesmStates_eq, eesmY, l3, l2]) fun n hn => ?_
    simp only [eesmNeutral, List.mem_cons, List.not_mem_nil, or_false] at hn
    rcases hn with rfl | rfl | rfl | rfl | rfl | rfl | rfl | rfl | rfl | rfl | rfl | rfl | rfl <;> simp [eesmStates_eq, readState, eesmY, l3, l2]

theorem dfim_neutral {A : Type} (mp : ImParams ℝ) {f : Frame ℝ ImY ((Fin 2 → ℝ) × (Fin 2 → ℝ)) A} (hf : LikeDfim mp f) (limits : List ℝ) :
    NeutralFrame (m := 5) RaisedBoth f limits imY dfimStates dfimNeutral := by
  refine ⟨fun w => ⟨raised_refl _, raised_refl _⟩, fun w w' v h => ⟨raised_scale _ _ v h.1, raised_scale _ _ v h.2⟩, hf.action,
    fun x => ⟨Fin.append (t32 ![x 1, x 2]) (t32 (rotorCurrent mp.lm mp.lsigr (imY x))), ?_⟩,
    fun x w => ⟨(t23 fun k => w (Fin.castAdd 3 k), q (abcToDq (fun k => w (Fin.natAdd 3 k)) ((imY x).field - (imY x).eps)) (imY x).field),
      fun w' h => ?_⟩, fun x z w w' v h => ?_⟩
  · rw [hf.iIn, List.ofFn_fin_append, ← l3_ofFn, ← l3_ofFn]
    rfl
  · rw [hf.lastU]
    simp only [dfimU, (six_parts w').1, (six_parts w').2, three_ofFn, ← abcToDq_raised h.2, ← (c147_forgotten _ _).2 h.1]
    rfl
  · rw [hf.report]
    simp only [dfimFrame, (six_parts w).1, (six_parts w).2, (six_parts w').1, (six_parts w').2, three_ofFn]
    have d1 := abcToDq_raised h.1 (imY x).field
    have d2 := abcToDq_raised h.2 ((imY x).field - (imY x).eps)
    show Echo _ (divLimits _ limits) (divLimits _ limits)
    rw [d1, d2]
    refine same_div (by simp [dfimStates_eq, imY, l3, l2]) (by simp [dfimStates_eq, imY, l3, l2]) fun n hn => ?_
    simp only [dfimNeutral, List.mem_cons, List.not_mem_nil, or_false] at hn
    rcases hn with rfl | rfl | rfl | rfl | rfl | rfl | rfl | rfl | rfl | rfl | rfl | rfl | rfl | rfl | rfl | rfl | rfl | rfl <;>
      simp [dfimStates_eq, readState, imY, l3, l2]

/-- C147 for the externally excited synchronous motor (with the same voltage of the excitation). -/
theorem c147_eesm (ee : EesmParams ℝ) {A C P : Type} (pw : Power A C) (out : A → Fin (3 + 1) → ℝ) (legal : A → Prop) (src : Source P) (load : AnyLoad)
    (limits : List ℝ) (v : ℝ) (hs : load.Static) (hv : FixedVoltage src v) (f : Frame ℝ EesmY (List ℝ) A) (hf : LikeEesm (eesmTq ee) f) :
    NeutralAlike RaisedStator pw out legal src load (eesmTorque ee) (fun x (u : List ℝ) w => eesmOde ee x (fun i => u.getD i 0) w) eesmY ofEesmY f
      (eesmReset (eesmTq ee)) limits eesmStates eesmNeutral :=
  neutral_of (eesm_neutral hf limits) hs hv

/-- C147 for the doubly fed motor: stator and rotor, each by its own amount. -/
theorem c147_dfim (mp : ImParams ℝ) {A C P : Type} (pw : Power A C) (out : A → Fin (3 + 3) → ℝ) (legal : A → Prop) (src : Source P) (load : AnyLoad)
    (limits : List ℝ) (v : ℝ) (hs : load.Static) (hv : FixedVoltage src v) (f : Frame ℝ ImY ((Fin 2 → ℝ) × (Fin 2 → ℝ)) A) (hf : LikeDfim mp f) :
    NeutralAlike RaisedBoth pw out legal src load (imTorque mp) (fun x u w => imOde mp x !![u.1 0, u.1 1; u.2 0, u.2 1] w) imY ofImY f
      (dfimReset mp.lm mp.lsigr (imTq mp)) limits dfimStates dfimNeutral :=
  neutral_of (dfim_neutral mp hf limits) hs hv

/-- action 0 in place of 7 -/
def sevenActions (a : ℕ) : ℕ := if a = 7 then 0 else a

/-- Seven actions suffice: a PMSM (or SynRM) system with the switched bridge answers to every history of switching states as to the history with 0 in
place of 7, but for the voltages of the phases. -/
theorem c147_seven_suffice {P : Type} (src : Source P) (load : AnyLoad) (torque : (Fin 3 → ℝ) → ℝ)
    (ode : (Fin 3 → ℝ) → (Fin 2 → ℝ) → ℝ → Fin 3 → ℝ) (limits : List ℝ) (v d t : ℝ) (k n : ℕ) (x : Fin (1 + 3) → ℝ) (p : P) (hs : load.Static)
    (hv : FixedVoltage src v) (hn : n ≠ 0) (y : SyncY) (ops : List (SyncY ⊕ ℕ)) (hops : ∀ a, .inr a ∈ ops → a < 8) :
    let run := answers (eulerParts finitePower src load torque ode none syncY ofSyncY) (asIs (syncFrame (syncTq torque) false))
      (syncReset (syncTq torque)) d limits ⟨t, k, ⟨t, x, n⟩, .b6 (B6.new d 0), p⟩
    List.Forall₂ (Echo (SameIn syncStates syncNeutral)) (run (.inl y :: ops)) (run (.inl y :: ops.map (Sum.map id sevenActions))) := by
  intro run
  refine c147_sync finitePower b6Volt (· < 8) src load torque ode limits v hs hv (asIs (syncFrame (syncTq torque) false)) ⟨rfl, rfl, rfl, rfl⟩
    (fun _ _ => rfl) d _ none ⟨t, k, ⟨t, x, n⟩, .b6 (B6.new d 0), p⟩ ⟨t, k, ⟨t, x, n⟩, .b6 (B6.new d 0), p⟩ y ops _ (c138_converters d).2.2.1
    (c138_converters d).2.2.1 hn rfl ?_
  rw [List.forall₂_map_right_iff]
  refine List.forall₂_same.2 fun o ho => ?_
  cases o with
  | inl y => exact rfl
  | inr a =>
    have h8 := hops a ho
    have h8' : sevenActions a < 8 := by unfold sevenActions; split_ifs <;> omega
    refine ⟨h8, h8', (c147_seven _ _ h8 h8').2 ?_⟩
    unfold sevenActions
    split_ifs with e
    · exact .inr (.inr ⟨e, rfl⟩)
    · exact .inl rfl

/-- the converters of the doubly fed motor: two switched bridges without interlocking time -/
theorem c147_dfim_converter (tau : ℝ) : SetOnce finiteMulti [.b6 (B6.new tau 0), .b6 (B6.new tau 0)] tau (fun a => ∃ x y, a = [x, y] ∧ x < 8 ∧ y < 8)
    (fun a => Fin.append (b6Volt (a.getD 0 0)) (b6Volt (a.getD 1 0))) (Fin.append (fun _ : Fin 3 => -1 / 2) fun _ : Fin 3 => -1 / 2) := by
  have ht : ∀ δ a, (fB6 tau 0).times δ a = [tau] := fun δ a => by
    simp only [fB6, legTimes_zero, List.cons_append, List.nil_append, sortedSet_thrice]
  have ho : ∀ δ a o i, (fB6 tau 0).out δ a o i = b6Volt a := fun δ a o i => by
    funext k
    simp only [fB6, legNext_zero, b6Legs, b6Volt]
    split_ifs <;> simp [legOut] <;> norm_num
  refine ⟨_, _, _, _, finitePair_realises (fB6_realises tau 0) (fB6_realises tau 0) (by rintro _ _ ⟨c, rfl, -⟩; rfl) (by rintro _ _ ⟨c, rfl, -⟩; rfl),
    ⟨(0, 0), _, _, rfl, ⟨_, rfl, ⟨rfl, rfl, rfl, by simp⟩, ⟨rfl, rfl, rfl, by simp⟩, rfl, rfl, rfl, by simp⟩,
      ⟨_, rfl, ⟨rfl, rfl, rfl, by simp⟩, ⟨rfl, rfl, rfl, by simp⟩, rfl, rfl, rfl, by simp⟩⟩, ?_, ?_⟩
  · rintro a ⟨x, y, rfl, hx, hy⟩
    refine ⟨⟨x, y, rfl, hx, hy⟩, fun δ => ⟨?_, fun o i => ?_⟩⟩
    · simp only [finitePair, pair, ht, List.cons_append, List.nil_append, sortedSet_twice]
    · simp only [finitePair, pair, List.getD_cons_zero, List.getD_cons_succ, ho]
  · rintro cs δ ⟨c0, c1, rfl, ⟨d0, rfl, -⟩, d1, rfl, -⟩
    rw [List.ofFn_fin_append]
    simp [finiteMulti, multiReset, FConv.reset, B6.reset]
    norm_num

/-- Of the 64 actions of the doubly fed motor those give voltages raised together that agree up to the two zero states, on each side. -/
theorem c147_dfim_seven (x y x' y' : ℕ) (hx : x < 8) (hy : y < 8) (hx' : x' < 8) (hy' : y' < 8) :
    RaisedBoth (Fin.append (b6Volt x) (b6Volt y)) (Fin.append (b6Volt x') (b6Volt y')) ↔
      sevenActions x' = sevenActions x ∧ sevenActions y' = sevenActions y := by
  have key : ∀ a a', a < 8 → a' < 8 → (sevenActions a' = sevenActions a ↔ RaisedTogether (b6Volt a) (b6Volt a')) := fun a a' h h' => by
    rw [c147_seven a a' h h']
    unfold sevenActions
    split_ifs <;> omega
  unfold RaisedBoth
  simp only [Fin.append_left, Fin.append_right]
  rw [key x x' hx hx', key y y' hy hy']

theorem abcToDq_common {w w' : Fin 3 → ℝ} {e : ℝ} (h : abcToDq w' e = abcToDq w e) : RaisedTogether w w' := by
  refine (c147_forgotten w w').1 ?_
  have back : ∀ u : Fin 2 → ℝ, q (qInv u e) e = u := fun u => by
    have h1 := Real.sin_sq_add_cos_sq e
    funext i
    fin_cases i
    · simp [q, qInv]
      linear_combination (u 0) * h1
    · simp [q, qInv]
      linear_combination (u 1) * h1
  rw [← back (t23 w'), ← back (t23 w)]
  exact congrArg (fun u => q u e) h

/-- Not fewer: in the same state of a PMSM (or SynRM) system, two switching states that are answered with the same `u_sd` and `u_sq` are equal or the two
zero states. -/
theorem c147_no_fewer {P : Type} (src : Source P) (load : AnyLoad) (torque : (Fin 3 → ℝ) → ℝ)
    (ode : (Fin 3 → ℝ) → (Fin 2 → ℝ) → ℝ → Fin 3 → ℝ) (limits : List ℝ) (v d t : ℝ) (k n : ℕ) (x : Fin (1 + 3) → ℝ) (p : P) (hs : load.Static)
    (hv : FixedVoltage src v) (hv0 : v ≠ 0) (hn : n ≠ 0) (hd : readState syncStates limits "u_sd" ≠ 0) (hq : readState syncStates limits "u_sq" ≠ 0)
    (hl : limits.length = 14) (a a' : ℕ) (h8 : a < 8) (h8' : a' < 8) :
    let run := fun b => (simulate (eulerParts finitePower src load torque ode none syncY ofSyncY) (asIs (syncFrame (syncTq torque) false)) d limits
      ⟨t, k, ⟨t, x, n⟩, .b6 (B6.new d 0), p⟩ b).2
    Echo (SameIn syncStates ["u_sd", "u_sq"]) (run a) (run a') → a' = a ∨ a = 0 ∧ a' = 7 ∨ a = 7 ∧ a' = 0 := by
  intro run h
  obtain ⟨D, M, all, holds, hR, ⟨δ, hδ⟩, hM, h0⟩ := (c138_converters d).2.2.1
  have hf := sync_neutral (A := ℕ) (f := asIs (syncFrame (syncTq torque) false)) ⟨rfl, rfl, rfl, rfl⟩ (fun _ _ => rfl) limits
  obtain ⟨i, hi⟩ := hf.cur x
  have key : ∀ b, b < 8 → ∃ om T i idq e, run b = .ok (List.zipWith (· / ·) ([om] ++ [T] ++ l3 i ++ l2 idq ++ (List.ofFn fun k => b6Volt b k * v) ++
      l2 (abcToDq (fun k => b6Volt b k * v) (x 3)) ++ [e] ++ [v]) limits) := by
    intro b hb
    obtain ⟨b1, b2⟩ := hM b hb
    obtain ⟨c1, p1, -, h2⟩ := simulate_once (st := ⟨t, k, ⟨t, x, n⟩, .b6 (B6.new d 0), p⟩) (ode := ode) (torque := torque) (ofY := ofSyncY)
      (scratch := none) (limits := limits) (d := d) (u := abcToDq (fun k => b6Volt b k * v) (x 3)) hR hs hv hδ (hf.act _ b) b1 ⟨_, (b2 δ).1⟩
      ((b2 δ).2 0 i) hi (by simp only [asIs, syncFrame, three_ofFn, Except.map]; rfl) hn rfl
    simp only [run, h2]
    simp only [asIs, syncFrame, three_ofFn, Except.map, Except.bind, divLimits]
    rw [if_pos (by simp [hl, syncY, l3, l2])]
    exact ⟨_, _, _, _, _, rfl⟩
  obtain ⟨_, _, _, _, _, e1⟩ := key a h8
  obtain ⟨_, _, _, _, _, e2⟩ := key a' h8'
  rw [e1, e2] at h
  have r0 := h.2 "u_sd" (by simp)
  have r1 := h.2 "u_sq" (by simp)
  rw [read_div, read_div, div_left_inj' hd] at r0
  rw [read_div, read_div, div_left_inj' hq] at r1
  simp [syncStates_eq, readState, l3, l2] at r0 r1
  have e : abcToDq (fun k => b6Volt a' k * v) (x 3) = abcToDq (fun k => b6Volt a k * v) (x 3) := by
    funext j
    fin_cases j
    · exact r0
    · exact r1
  obtain ⟨z, hz⟩ := abcToDq_common e
  refine (c147_seven a a' h8 h8').1 ⟨z / v, fun j => ?_⟩
  have := hz j
  field_simp
  linarith

/-- A PMSM with a nominal voltage of 300 V and a load with friction: a history with both zero states and one more reset, and the one without action 7. -/
example (mp : SyncParams ℝ) (limits : List ℝ) :
    let run := answers (eulerParts finitePower (idealSource 300) (.poly 0 1 0 1 1 []) (pmsmTorque mp) (syncOde (pmsmConstants mp)) none syncY ofSyncY)
      (asIs (syncFrame (syncTq (pmsmTorque mp)) false)) (syncReset (syncTq (pmsmTorque mp))) (1 / 10000) limits
      ⟨0, 0, ⟨0, 0, 1⟩, .b6 (B6.new (1 / 10000) 0), ()⟩
    List.Forall₂ (Echo (SameIn syncStates syncNeutral)) (run [.inl (syncY ![1, 2, 3, 4]), .inr 4, .inr 7, .inr 0, .inl (syncY ![0, 0, 0, 0]), .inr 7])
      (run [.inl (syncY ![1, 2, 3, 4]), .inr 4, .inr 0, .inr 0, .inl (syncY ![0, 0, 0, 0]), .inr 0]) :=
  c147_seven_suffice (idealSource 300) (.poly 0 1 0 1 1 []) (pmsmTorque mp) (syncOde (pmsmConstants mp)) limits 300 (1 / 10000) 0 0 1 0 () trivial
    ⟨fun _ _ _ => rfl, fun _ => rfl⟩ one_ne_zero (syncY ![1, 2, 3, 4]) [.inr 4, .inr 7, .inr 0, .inl (syncY ![0, 0, 0, 0]), .inr 7] (by simp)

/-- A doubly fed motor with an ideal supply of 500 V: both zero states of the stator's bridge, then both of the rotor's. -/
example (mp : ImParams ℝ) (limits : List ℝ) :
    let run := answers (eulerParts finiteMulti (idealSource 500) (.poly 0 1 0 1 1 []) (imTorque mp)
      (fun x (u : (Fin 2 → ℝ) × (Fin 2 → ℝ)) w => imOde mp x !![u.1 0, u.1 1; u.2 0, u.2 1] w) none imY ofImY)
      (asIs (dfimFrame mp.lm mp.lsigr (imTq mp))) (dfimReset mp.lm mp.lsigr (imTq mp)) (1 / 10000) limits
      ⟨0, 0, ⟨0, 0, 2⟩, [.b6 (B6.new (1 / 10000) 0), .b6 (B6.new (1 / 10000) 0)], ()⟩
    List.Forall₂ (Echo (SameIn dfimStates dfimNeutral)) (run [.inl (imY ![1, 2, 3, 4, 5, 6]), .inr [7, 3], .inr [1, 0]])
      (run [.inl (imY ![1, 2, 3, 4, 5, 6]), .inr [0, 3], .inr [1, 7]]) := by
  intro run
  refine c147_dfim mp finiteMulti _ _ (idealSource 500) (.poly 0 1 0 1 1 []) limits 500 trivial ⟨fun _ _ _ => rfl, fun _ => rfl⟩
    (asIs (dfimFrame mp.lm mp.lsigr (imTq mp))) ⟨rfl, fun _ _ => rfl, rfl, rfl, rfl⟩ (1 / 10000) _ none
    ⟨0, 0, ⟨0, 0, 2⟩, [.b6 (B6.new (1 / 10000) 0), .b6 (B6.new (1 / 10000) 0)], ()⟩
    ⟨0, 0, ⟨0, 0, 2⟩, [.b6 (B6.new (1 / 10000) 0), .b6 (B6.new (1 / 10000) 0)], ()⟩ _ _ _ (c147_dfim_converter _) (c147_dfim_converter _)
    two_ne_zero rfl ?_
  refine .cons ⟨⟨7, 3, rfl, by norm_num, by norm_num⟩, ⟨0, 3, rfl, by norm_num, by norm_num⟩, ?_⟩
    (.cons ⟨⟨1, 0, rfl, by norm_num, by norm_num⟩, ⟨1, 7, rfl, by norm_num, by norm_num⟩, ?_⟩ .nil)
  · exact (c147_dfim_seven 7 3 0 3 (by norm_num) (by norm_num) (by norm_num) (by norm_num)).2 ⟨rfl, rfl⟩
  · exact (c147_dfim_seven 1 0 1 7 (by norm_num) (by norm_num) (by norm_num) (by norm_num)).2 ⟨rfl, rfl⟩

/-- Duty cycles raised by a quarter. -/
example : RaisedTogether (b6Duty (List.ofFn ![1 / 2, -1 / 2, 0])) (b6Duty (List.ofFn fun k => (![1 / 2, -1 / 2, 0] : Fin 3 → ℝ) k + 1 / 4)) :=
  c147_duties _ _ (fun k => by fin_cases k <;> norm_num) (fun k => by fin_cases k <;> norm_num)

end

end GEM.Props
