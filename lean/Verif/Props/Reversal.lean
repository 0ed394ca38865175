import Verif.Props.Phases

/-!
# C136: the opposite direction

Three-phase drives with the phases b and c interchanged turn in the opposite direction.  DC drives with the opposite voltage of one winding turn
in the opposite direction, with the opposite voltages of both windings (or of series and shunt motors) in the same direction.
-/

set_option linter.unusedSectionVars false

namespace GEM.Props

noncomputable section

open GEM GEM.Sys GEM.Conv GEM.Motor GEM.Solver GEM.Load

/-! ## Synchronous motors -/

theorem wrap_neg (e : ℝ) : ∃ k : ℤ, wrap (-e) = -wrap e + 2 * Real.pi * k := by
  obtain ⟨k, hk⟩ := wrap_turns e
  obtain ⟨k', hk'⟩ := wrap_turns (-e)
  exact ⟨k' + k, by rw [hk, hk']; push_cast; ring⟩

/-- direct current, transverse current and angle -/
def flipSync : (Fin 3 → ℝ) →ₗ[ℝ] Fin 3 → ℝ where
  toFun z := ![z 0, -z 1, -z 2]
  map_add' x y := by
    funext i
    fin_cases i <;> simp <;> ring
  map_smul' c x := by
    funext i
    fin_cases i <;> simp

/-- the state of the solver, seen from the other direction -/
def mirrorSync (x : Fin (1 + 3) → ℝ) : Fin (1 + 3) → ℝ := ![-x 0, x 1, -x 2, -x 3]

theorem mirrorSync_eq (x : Fin (1 + 3) → ℝ) : blockMap (-1) flipSync x + Fin.append 0 0 = mirrorSync x := by
  funext i
  fin_cases i <;> simp [blockMap, mirrorSync, flipSync, Fin.append, Fin.addCases, Fin.subNat]

theorem syncY_mirror (x : Fin (1 + 3) → ℝ) : syncY (mirrorSync x) = ⟨[-x 0], reflect ![x 1, x 2], -x 3⟩ := rfl

theorem sync_image_mirror {limits : List ℝ} (hl : EvenLimits syncStates syncStates limits swapped) (om T : ℝ) (i : Fin 3 → ℝ)
    (idq : Fin 2 → ℝ) (w : Fin 3 → ℝ) (udq : Fin 2 → ℝ) (e e' v : ℝ) (he : ∃ k : ℤ, e' = -e + 2 * Real.pi * k) :
    Echo (Image syncStates syncStates limits swapped oppositeSign 0)
      (divLimits ([om] ++ [T] ++ l3 i ++ l2 idq ++ List.ofFn w ++ l2 udq ++ [e] ++ [v]) limits)
      (divLimits ([-om] ++ [-T] ++ l3 (i ∘ swapBC) ++ l2 (reflect idq) ++ List.ofFn (w ∘ swapBC) ++ l2 (reflect udq) ++ [e'] ++ [v]) limits) := by
  refine echo_image hl (by simp [syncStates_eq, l3, l2]) (by simp [syncStates_eq, l3, l2]) ?_ ?_
  · intro n hn hne
    rw [syncStates_eq] at hn
    simp only [List.mem_cons, List.not_mem_nil, or_false] at hn
    rcases hn with rfl | rfl | rfl | rfl | rfl | rfl | rfl | rfl | rfl | rfl | rfl | rfl | rfl | rfl <;>
      first
        | exact absurd rfl hne
        | simp [syncStates_eq, readState, swapped, oppositeSign, l3, l2, swapBC, reflect]
  · intro _
    obtain ⟨k, hk⟩ := he
    refine ⟨k, ?_⟩
    simp [syncStates_eq, readState, oppositeSign, l3, l2, hk]

theorem sync_frames_mirror {A : Type} {torque : (Fin 3 → ℝ) → ℝ} (ht : ∀ a b e e', torque ![a, -b, e] = -torque ![a, b, e'])
    {f : Frame ℝ SyncY (Fin 2 → ℝ) A} (hf : LikeSync (syncTq torque) f) {limits : List ℝ}
    (hl : EvenLimits syncStates syncStates limits swapped) {mate asked : A → A → Prop}
    (ha : ∀ x a a', asked a a' → mate (f.action (syncY x) a) (f.action (syncY (mirrorSync x)) a')) :
    Frames f (syncReset (syncTq torque)) limits syncY mirrorSync (fun w : Fin 3 → ℝ => w ∘ swapBC) reflect mate asked
      (Image syncStates syncStates limits swapped oppositeSign 0) := by
  have hU : ∀ x (w : Fin 3 → ℝ), Echo (fun u u' => u' = reflect u) ((syncFrame (syncTq torque) false).lastU (syncY x) (List.ofFn w))
      ((syncFrame (syncTq torque) false).lastU (syncY (mirrorSync x)) (List.ofFn (w ∘ swapBC))) := by
    intro x w
    simp only [syncFrame, three_ofFn, syncY_mirror, Except.map, abcToDq_reflect]
    rfl
  refine ⟨fun w v => rfl, fun x => ⟨syncCurr x, ?_, ?_⟩, ha, ?_, ?_, ?_, ?_⟩
  · rw [hf.iIn]
    exact l3_ofFn _
  · rw [hf.iIn]
    simp only [syncFrame, syncY_mirror, dqToAbc_reflect]
    exact l3_ofFn _
  · rw [hf.loopU]
    exact hU
  · rw [hf.lastU]
    exact hU
  · intro x z w v
    rw [hf.report]
    simp only [syncFrame, three_ofFn, syncY_mirror, Except.map, abcToDq_reflect, dqToAbc_reflect, Except.bind]
    have e : syncTq torque ⟨[-z 0], reflect ![z 1, z 2], -z 3⟩ = -syncTq torque (syncY z) := ht _ _ _ _
    rw [e]
    exact sync_image_mirror hl _ _ _ _ _ _ _ _ _ (wrap_neg _)
  · intro x w v
    obtain ⟨k, hk⟩ := wrapReset_turns (x 3)
    obtain ⟨k', hk'⟩ := wrapReset_turns (-x 3)
    have h1 : wrapReset (syncY x).eps = x 3 + 2 * Real.pi * k := hk
    simp only [syncReset, three_ofFn, syncY_mirror, Except.map, Except.bind, hk', h1, abcToDq_fullTurns, dqToAbc_turns, abcToDq_reflect,
      dqToAbc_reflect]
    have e : syncTq torque ⟨[-x 0], reflect ![x 1, x 2], -x 3⟩ = -syncTq torque (syncY x) := ht _ _ _ _
    rw [e]
    exact sync_image_mirror hl _ _ _ _ _ _ _ _ _ ⟨k' + k, by push_cast; ring⟩

/-- PMSM or SynRM systems in both directions, with a switched or an averaged B6 bridge, with actions for the phases or in dq coordinates. -/
def SyncReverses (torque : (Fin 3 → ℝ) → ℝ) (ode : (Fin 3 → ℝ) → (Fin 2 → ℝ) → ℝ → Fin 3 → ℝ) : Prop :=
  ∀ {P : Type} (src : Source P) (load : AnyLoad) (limits : List ℝ) (T I : ℝ), OneVoltage src →
    EvenLimits syncStates syncStates limits swapped →
    SameCourse finitePower src load load.opposite torque ode syncY ofSyncY (asIs (syncFrame (syncTq torque) false)) (syncReset (syncTq torque))
      limits (.b6 (B6.new T I)) mirrorSync (SwitchesMoved swapBC) (Image syncStates syncStates limits swapped oppositeSign 0) ∧
    SameCourse contPower src load load.opposite torque ode syncY ofSyncY (syncFrame (syncTq torque) false) (syncReset (syncTq torque)) limits
      (.b6 (CB6.new T I)) mirrorSync (DutiesMoved swapBC) (Image syncStates syncStates limits swapped oppositeSign 0) ∧
    SameCourse contPower src load load.opposite torque ode syncY ofSyncY (syncFrame (syncTq torque) true) (syncReset (syncTq torque)) limits
      (.b6 (CB6.new T I)) mirrorSync (fun a a' => ∃ d q, a = [d, q] ∧ a' = [d, -q])
      (Image syncStates syncStates limits swapped oppositeSign 0)

theorem sync_reverses {torque : (Fin 3 → ℝ) → ℝ} {ode : (Fin 3 → ℝ) → (Fin 2 → ℝ) → ℝ → Fin 3 → ℝ}
    (ht : ∀ a b e e', torque ![a, -b, e] = -torque ![a, b, e'])
    (ho : ∀ z u w, ode (flipSync z) (reflect u) (-w) = flipSync (ode z u w)) : SyncReverses torque ode := by
  intro P src load limits T I h1 hl
  have hrhs : ∀ u t x, drive torque ode load.opposite none (reflect u) t (blockMap (-1) flipSync x + Fin.append 0 0) =
      blockMap (-1) flipSync (drive torque ode load none u t x) := by
    refine rhs_block (fun z => ?_) (fun z u w => ?_) (mech_opposite load)
    · have e2 : z = ![z 0, z 1, z 2] := by funext i; fin_cases i <;> rfl
      rw [add_zero, neg_one_mul]
      conv_rhs => rw [e2]
      exact ht _ _ _ _
    · rw [add_zero, neg_one_mul, ho]
  have hm := funext mirrorSync_eq
  refine ⟨sameCourse_of ⟨h1, b6_twin swapBC, ?_, syncY_back, hrhs⟩ (fresh_b6 swapBC T I) mirrorSync_eq,
    sameCourse_of ⟨h1, cb6_twin swapBC, ?_, syncY_back, hrhs⟩ (fresh_cb6 swapBC T I) mirrorSync_eq,
    sameCourse_of ⟨h1, cb6_twin swapBC, ?_, syncY_back, hrhs⟩ (fresh_cb6 swapBC T I) mirrorSync_eq⟩
  · rw [hm]
    exact sync_frames_mirror (f := _) ht (by exact ⟨rfl, rfl, rfl, rfl⟩) hl fun _ _ _ h => h
  · rw [hm]
    exact sync_frames_mirror (f := _) ht (by exact ⟨rfl, rfl, rfl, rfl⟩) hl fun _ _ _ h => h
  · rw [hm]
    refine sync_frames_mirror ht (by exact ⟨rfl, rfl, rfl, rfl⟩) hl ?_
    rintro x _ _ ⟨d, q, rfl, rfl⟩
    refine ⟨dqToAbc ![d, q] (x 3), ?_, ?_⟩
    · exact l3_ofFn _
    · rw [← dqToAbc_reflect]
      exact l3_ofFn _

theorem pmsm_ode (mp : SyncParams ℝ) (z : Fin 3 → ℝ) (u : Fin 2 → ℝ) (w : ℝ) : syncOde (pmsmConstants mp) z u w =
    ![(-mp.rs * z 0 + u 0 + mp.lq * mp.p * (w * z 1)) / mp.ld,
      (-mp.psiP * mp.p * w - mp.rs * z 1 + u 1 - mp.ld * mp.p * (w * z 0)) / mp.lq, mp.p * w] := by
  funext i
  fin_cases i <;> simp [syncOde, pmsmConstants, rowsDiv, Matrix.mulVec, dotProduct, Fin.sum_univ_succ] <;> ring

theorem synrm_ode (mp : SyncParams ℝ) (z : Fin 3 → ℝ) (u : Fin 2 → ℝ) (w : ℝ) : syncOde (synrmConstants mp) z u w =
    ![(-mp.rs * z 0 + u 0 + mp.lq * mp.p * (w * z 1)) / mp.ld,
      (-mp.rs * z 1 + u 1 - mp.ld * mp.p * (w * z 0)) / mp.lq, mp.p * w] := by
  funext i
  fin_cases i <;> simp [syncOde, synrmConstants, rowsDiv, Matrix.mulVec, dotProduct, Fin.sum_univ_succ] <;> ring

/-- C136 for PMSM and SynRM. -/
theorem c136_sync (mp : SyncParams ℝ) : SyncReverses (pmsmTorque mp) (syncOde (pmsmConstants mp)) ∧
    SyncReverses (synrmTorque mp) (syncOde (synrmConstants mp)) := by
  refine ⟨sync_reverses (fun a b e e' => by simp [pmsmTorque]) fun z u w => ?_,
    sync_reverses (fun a b e e' => by simp [synrmTorque]) fun z u w => ?_⟩
  · rw [pmsm_ode, pmsm_ode]
    funext i
    fin_cases i
    · simp [flipSync, reflect]
    · simp [flipSync, reflect]; ring
    · simp [flipSync, reflect]
  · rw [synrm_ode, synrm_ode]
    funext i
    fin_cases i
    · simp [flipSync, reflect]
    · simp [flipSync, reflect]; ring
    · simp [flipSync, reflect]

/-! ## Induction motors -/

/-- names after interchanging the phases b and c of the stator, and of the rotor -/
def swappedIm (n : String) : String :=
  if n = "i_sb" then "i_sc" else if n = "i_sc" then "i_sb" else if n = "u_sb" then "u_sc" else if n = "u_sc" then "u_sb"
  else if n = "i_rb" then "i_rc" else if n = "i_rc" then "i_rb" else if n = "u_rb" then "u_rc" else if n = "u_rc" then "u_rb" else n

/-- signs in the opposite direction -/
def oppositeSignIm (n : String) : ℝ := if n ∈ ["omega", "torque", "i_sq", "u_sq", "i_rq", "u_rq", "epsilon"] then -1 else 1

/-- currents, flux and angle -/
def flipIm : (Fin 5 → ℝ) →ₗ[ℝ] Fin 5 → ℝ where
  toFun z := ![z 0, -z 1, z 2, -z 3, -z 4]
  map_add' x y := by
    funext i
    fin_cases i <;> simp <;> ring
  map_smul' c x := by
    funext i
    fin_cases i <;> simp

/-- the state of the solver, seen from the other direction -/
def mirrorIm (x : Fin (1 + 5) → ℝ) : Fin (1 + 5) → ℝ := ![-x 0, x 1, -x 2, x 3, -x 4, -x 5]

theorem mirrorIm_eq (x : Fin (1 + 5) → ℝ) : blockMap (-1) flipIm x + Fin.append 0 0 = mirrorIm x := by
  funext i
  fin_cases i <;> simp [blockMap, mirrorIm, flipIm, Fin.append, Fin.addCases, Fin.subNat]

theorem imY_mirror (x : Fin (1 + 5) → ℝ) : imY (mirrorIm x) = ⟨[-x 0], reflect ![x 1, x 2], reflect ![x 3, x 4], -x 5⟩ := rfl

/-- the angle of the flux is that of the mirror image -/
theorem field_mirror (x : Fin (1 + 5) → ℝ) : ∃ k : ℤ, (imY (mirrorIm x)).field = -(imY x).field + 2 * Real.pi * k := by
  have h : (imY (mirrorIm x)).field = Complex.arg ((starRingEnd ℂ) ⟨x 3, x 4⟩) := rfl
  have h' : (imY x).field = Complex.arg ⟨x 3, x 4⟩ := rfl
  rw [h, h', Complex.arg_conj]
  split_ifs with hp
  · exact ⟨1, by rw [hp]; push_cast; ring⟩
  · exact ⟨0, by simp⟩

theorem imTq_mirror (mp : ImParams ℝ) (x : Fin (1 + 5) → ℝ) : imTq mp (imY (mirrorIm x)) = -imTq mp (imY x) := by
  rw [imY_mirror]
  simp [imTq, imTorque, reflect, imY]
  ring

theorem im_rhs_mirror (mp : ImParams ℝ) (load : AnyLoad) {U : Type} {onU : U → U} {us ur : U → Fin 2 → ℝ}
    (h1 : ∀ u, us (onU u) = reflect (us u)) (h2 : ∀ u, ur (onU u) = reflect (ur u)) (u : U) (t : ℝ) (x : Fin (1 + 5) → ℝ) :
    drive (imTorque mp) (fun x u w => imOde mp x !![us u 0, us u 1; ur u 0, ur u 1] w) load.opposite none (onU u) t
      (blockMap (-1) flipIm x + Fin.append 0 0) =
      blockMap (-1) flipIm (drive (imTorque mp) (fun x u w => imOde mp x !![us u 0, us u 1; ur u 0, ur u 1] w) load none u t x) := by
  refine rhs_block (fun z => ?_) (fun z u w => ?_) (mech_opposite load) u t x
  · rw [add_zero, neg_one_mul]
    simp [imTorque, flipIm]
    ring
  · rw [add_zero, neg_one_mul, h1, h2]
    funext i
    fin_cases i <;>
      simp [imOde, imConstants, flipIm, reflect, Matrix.mulVec, dotProduct, Fin.sum_univ_succ] <;> ring

theorem scim_image_mirror {limits : List ℝ} (hl : EvenLimits scimStates scimStates limits swappedIm) (om T : ℝ) (i : Fin 3 → ℝ)
    (idq : Fin 2 → ℝ) (w : Fin 3 → ℝ) (udq : Fin 2 → ℝ) (e e' v : ℝ) (he : ∃ k : ℤ, e' = -e + 2 * Real.pi * k) :
    Echo (Image scimStates scimStates limits swappedIm oppositeSignIm 0)
      (divLimits ([om] ++ [T] ++ l3 i ++ l2 idq ++ List.ofFn w ++ l2 udq ++ [e] ++ [v]) limits)
      (divLimits ([-om] ++ [-T] ++ l3 (i ∘ swapBC) ++ l2 (reflect idq) ++ List.ofFn (w ∘ swapBC) ++ l2 (reflect udq) ++ [e'] ++ [v]) limits) := by
  refine echo_image hl (by simp [scimStates_eq, l3, l2]) (by simp [scimStates_eq, l3, l2]) ?_ ?_
  · intro n hn hne
    rw [scimStates_eq] at hn
    simp only [List.mem_cons, List.not_mem_nil, or_false] at hn
    rcases hn with rfl | rfl | rfl | rfl | rfl | rfl | rfl | rfl | rfl | rfl | rfl | rfl | rfl | rfl <;>
      first
        | exact absurd rfl hne
        | simp [scimStates_eq, readState, swappedIm, oppositeSignIm, l3, l2, swapBC, reflect]
  · intro _
    obtain ⟨k, hk⟩ := he
    refine ⟨k, ?_⟩
    simp [scimStates_eq, readState, oppositeSignIm, l3, l2, hk]

theorem scim_frames_mirror {A : Type} (mp : ImParams ℝ) {f : Frame ℝ ImY (Fin 2 → ℝ) A} (hi : f.iIn = (scimFrame (imTq mp) false).iIn)
    (h1 : f.loopU = (scimFrame (imTq mp) false).loopU) (h2 : f.lastU = (scimFrame (imTq mp) false).lastU)
    (h3 : f.report = (scimFrame (imTq mp) false).report) {limits : List ℝ} (hl : EvenLimits scimStates scimStates limits swappedIm)
    {mate asked : A → A → Prop} (ha : ∀ x a a', asked a a' → mate (f.action (imY x) a) (f.action (imY (mirrorIm x)) a')) :
    Frames f (scimReset (imTq mp)) limits imY mirrorIm (fun w : Fin 3 → ℝ => w ∘ swapBC) reflect mate asked
      (Image scimStates scimStates limits swappedIm oppositeSignIm 0) := by
  have hU : ∀ x (w : Fin 3 → ℝ), Echo (fun u u' => u' = reflect u)
      ((scimFrame (imTq mp) false).lastU (imY x) (List.ofFn w))
      ((scimFrame (imTq mp) false).lastU (imY (mirrorIm x)) (List.ofFn (w ∘ swapBC))) := by
    intro x w
    simp only [scimFrame, three_ofFn, Except.map, t23_reflect]
    rfl
  refine ⟨fun w v => rfl, fun x => ⟨t32 ![x 1, x 2], ?_, ?_⟩, ha, ?_, ?_, ?_, ?_⟩
  · rw [hi]
    exact l3_ofFn _
  · rw [hi]
    simp only [scimFrame, imY_mirror, t32_reflect]
    exact l3_ofFn _
  · rw [h1]
    exact hU
  · rw [h2]
    exact hU
  · intro x z w v
    obtain ⟨k, hk⟩ := field_mirror x
    rw [h3]
    simp only [scimFrame, three_ofFn, Except.map, Except.bind, phases_free, imTq_mirror, hk, qInv_turns, abcToDq_fullTurns, abcToDq_reflect]
    rw [imY_mirror]
    simp only [t32_reflect, qInv_reflect]
    exact scim_image_mirror hl _ _ _ _ _ _ _ _ _ (wrap_neg _)
  · intro x w v
    obtain ⟨k, hk⟩ := field_mirror x
    obtain ⟨m, hm⟩ := wrapReset_turns (x 5)
    obtain ⟨m', hm'⟩ := wrapReset_turns (-x 5)
    have e1 : wrapReset (imY x).eps = x 5 + 2 * Real.pi * m := hm
    simp only [scimReset, three_ofFn, Except.map, Except.bind, phases_free, imTq_mirror, hk, qInv_turns, abcToDq_fullTurns, abcToDq_reflect]
    rw [imY_mirror]
    simp only [qInv_reflect, dqToAbc_turns, dqToAbc_reflect, phases_free, hm', e1]
    exact scim_image_mirror hl _ _ _ _ _ _ _ _ _ ⟨m' + m, by push_cast; ring⟩

/-- C136 for the squirrel cage motor. -/
theorem c136_scim (mp : ImParams ℝ) {P : Type} (src : Source P) (load : AnyLoad) (limits : List ℝ) (T I : ℝ) (h1 : OneVoltage src)
    (hl : EvenLimits scimStates scimStates limits swappedIm) :
    SameCourse finitePower src load load.opposite (imTorque mp) (scimOde mp) imY ofImY (asIs (scimFrame (imTq mp) false)) (scimReset (imTq mp))
      limits (.b6 (B6.new T I)) mirrorIm (SwitchesMoved swapBC) (Image scimStates scimStates limits swappedIm oppositeSignIm 0) ∧
    SameCourse contPower src load load.opposite (imTorque mp) (scimOde mp) imY ofImY (scimFrame (imTq mp) false) (scimReset (imTq mp)) limits
      (.b6 (CB6.new T I)) mirrorIm (DutiesMoved swapBC) (Image scimStates scimStates limits swappedIm oppositeSignIm 0) ∧
    SameCourse contPower src load load.opposite (imTorque mp) (scimOde mp) imY ofImY (scimFrame (imTq mp) true) (scimReset (imTq mp)) limits
      (.b6 (CB6.new T I)) mirrorIm (fun a a' => ∃ d q, a = [d, q] ∧ a' = [d, -q])
      (Image scimStates scimStates limits swappedIm oppositeSignIm 0) := by
  have hm := funext mirrorIm_eq
  have hrhs := im_rhs_mirror mp load (U := Fin 2 → ℝ) (onU := reflect) (us := id) (ur := fun _ => 0) (fun _ => rfl)
    (fun _ => by funext i; fin_cases i <;> simp [reflect])
  refine ⟨sameCourse_of ⟨h1, b6_twin swapBC, ?_, imY_back, hrhs⟩ (fresh_b6 swapBC T I) mirrorIm_eq,
    sameCourse_of ⟨h1, cb6_twin swapBC, ?_, imY_back, hrhs⟩ (fresh_cb6 swapBC T I) mirrorIm_eq,
    sameCourse_of ⟨h1, cb6_twin swapBC, ?_, imY_back, hrhs⟩ (fresh_cb6 swapBC T I) mirrorIm_eq⟩
  · rw [hm]
    exact scim_frames_mirror mp (by rfl) (by rfl) (by rfl) (by rfl) hl fun _ _ _ h => h
  · rw [hm]
    exact scim_frames_mirror mp (by rfl) (by rfl) (by rfl) (by rfl) hl fun _ _ _ h => h
  · rw [hm]
    refine scim_frames_mirror mp (by rfl) (by rfl) (by rfl) (by rfl) hl ?_
    rintro x _ _ ⟨d, q, rfl, rfl⟩
    obtain ⟨k, hk⟩ := field_mirror x
    refine ⟨dqToAbc ![d, q] (imY x).field, ?_, ?_⟩
    · exact l3_ofFn _
    · rw [← dqToAbc_reflect, ← dqToAbc_turns _ _ k, ← hk]
      exact l3_ofFn _

theorem dfim_image_mirror {limits : List ℝ} (hl : EvenLimits dfimStates dfimStates limits swappedIm) (om T : ℝ) (i r w wr : Fin 3 → ℝ)
    (idq rdq udq vdq : Fin 2 → ℝ) (e e' v : ℝ) (he : ∃ k : ℤ, e' = -e + 2 * Real.pi * k) :
    Echo (Image dfimStates dfimStates limits swappedIm oppositeSignIm 0)
      (divLimits ([om] ++ [T] ++ l3 i ++ l2 idq ++ l3 r ++ l2 rdq ++ l3 w ++ l2 udq ++ l3 wr ++ l2 vdq ++ [e] ++ [v]) limits)
      (divLimits ([-om] ++ [-T] ++ l3 (i ∘ swapBC) ++ l2 (reflect idq) ++ l3 (r ∘ swapBC) ++ l2 (reflect rdq) ++ l3 (w ∘ swapBC) ++
        l2 (reflect udq) ++ l3 (wr ∘ swapBC) ++ l2 (reflect vdq) ++ [e'] ++ [v]) limits) := by
  refine echo_image hl (by simp [dfimStates_eq, l3, l2]) (by simp [dfimStates_eq, l3, l2]) ?_ ?_
  · intro n hn hne
    rw [dfimStates_eq] at hn
    simp only [List.mem_cons, List.not_mem_nil, or_false] at hn
    rcases hn with rfl | rfl | rfl | rfl | rfl | rfl | rfl | rfl | rfl | rfl | rfl | rfl | rfl | rfl | rfl | rfl | rfl | rfl | rfl | rfl |
      rfl | rfl | rfl | rfl <;>
      first
        | exact absurd rfl hne
        | simp [dfimStates_eq, readState, swappedIm, oppositeSignIm, l3, l2, swapBC, reflect]
  · intro _
    obtain ⟨k, hk⟩ := he
    refine ⟨k, ?_⟩
    simp [dfimStates_eq, readState, oppositeSignIm, l3, l2, hk]

theorem rotor_mirror (lm lsigr : ℝ) (x : Fin (1 + 5) → ℝ) :
    rotorCurrent lm lsigr (imY (mirrorIm x)) = reflect (rotorCurrent lm lsigr (imY x)) := by
  rw [imY_mirror]
  funext i
  fin_cases i
  · simp [rotorCurrent, imY, reflect]
  · simp [rotorCurrent, imY, reflect]; ring

/-- the phases b and c of stator and rotor -/
def swapSix : (Fin (3 + 3) → ℝ) → Fin (3 + 3) → ℝ := onBoth (fun w => w ∘ swapBC) (fun w => w ∘ swapBC)

theorem swapSix_parts (w : Fin (3 + 3) → ℝ) : (fun k : Fin 3 => swapSix w (Fin.castAdd 3 k)) = (fun k => w (Fin.castAdd 3 k)) ∘ swapBC ∧
    (fun k : Fin 3 => swapSix w (Fin.natAdd 3 k)) = (fun k => w (Fin.natAdd 3 k)) ∘ swapBC := by
  constructor <;> funext k <;> simp only [swapSix, onBoth, Fin.append_left, Fin.append_right, Function.comp]

theorem dfim_frames_mirror {A : Type} (mp : ImParams ℝ) {f : Frame ℝ ImY ((Fin 2 → ℝ) × (Fin 2 → ℝ)) A} (hf : LikeDfim mp f)
    {limits : List ℝ} (hl : EvenLimits dfimStates dfimStates limits swappedIm) {asked : A → A → Prop} :
    Frames f (dfimReset mp.lm mp.lsigr (imTq mp)) limits imY mirrorIm swapSix (fun u => (reflect u.1, reflect u.2)) asked asked
      (Image dfimStates dfimStates limits swappedIm oppositeSignIm 0) := by
  have hU : ∀ x (w : Fin (3 + 3) → ℝ), Echo (fun u u' => u' = (reflect u.1, reflect u.2))
      (dfimU (imY x) (List.ofFn w)) (dfimU (imY (mirrorIm x)) (List.ofFn (swapSix w))) := by
    intro x w
    simp only [dfimU, (six_parts w).1, (six_parts w).2, (six_parts (swapSix w)).1, (six_parts (swapSix w)).2, swapSix_parts, three_ofFn,
      rotor_input]
    show _ = _
    rw [t23_reflect, t23_reflect]
    exact Prod.ext rfl (q_reflect _ _)
  refine ⟨fun w v => ?_, fun x => ⟨Fin.append (t32 ![x 1, x 2]) (t32 (rotorCurrent mp.lm mp.lsigr (imY x))), ?_, ?_⟩, ?_, ?_, ?_, ?_, ?_⟩
  · funext k
    refine Fin.addCases (fun k => ?_) (fun k => ?_) k <;> simp only [swapSix, onBoth, Fin.append_left, Fin.append_right, Function.comp]
  · rw [hf.iIn, List.ofFn_fin_append, ← l3_ofFn, ← l3_ofFn]
    rfl
  · rw [hf.iIn]
    simp only [dfimFrame, rotor_mirror, t32_reflect]
    rw [swapSix, onBoth_append, List.ofFn_fin_append, ← l3_ofFn, ← l3_ofFn, imY_mirror, t32_reflect]
  · intro x a a' h
    rw [hf.action, hf.action]
    exact h
  · rw [hf.loopU]
    exact hU
  · rw [hf.lastU]
    exact hU
  · intro x z w v
    obtain ⟨k, hk⟩ := field_mirror x
    have hd : (imY (mirrorIm x)).field - (imY (mirrorIm x)).eps = -((imY x).field - (imY x).eps) + 2 * Real.pi * k := by
      rw [hk]
      show _ - -x 5 = -(_ - x 5) + _
      ring
    have he : (imY (mirrorIm x)).eps = -(imY x).eps := rfl
    rw [hf.report]
    simp only [dfimFrame, (six_parts w).1, (six_parts w).2, (six_parts (swapSix w)).1, (six_parts (swapSix w)).2, swapSix_parts, three_ofFn,
      bind, Except.bind, phases_free, rotor_phases, rotor_mirror, imTq_mirror, hd, abcToDq_fullTurns, abcToDq_reflect]
    simp only [hk, he, qInv_turns, abcToDq_fullTurns, abcToDq_reflect, qInv_reflect, q_reflect, t32_reflect]
    rw [show (imY (mirrorIm z)).mech = [-z 0] from rfl, show (imY z).mech = [z 0] from rfl, show (imY (mirrorIm z)).i = reflect (imY z).i from rfl,
      t32_reflect, qInv_reflect]
    exact dfim_image_mirror hl _ _ _ _ _ _ _ _ _ _ _ _ _ (wrap_neg _)
  · intro x w v
    obtain ⟨k, hk⟩ := field_mirror x
    obtain ⟨a, h1⟩ := wrapReset_turns (imY x).field
    obtain ⟨b, h2⟩ := wrapReset_turns (imY x).eps
    obtain ⟨a', h1'⟩ := wrapReset_turns (imY (mirrorIm x)).field
    obtain ⟨b', h2'⟩ := wrapReset_turns (imY (mirrorIm x)).eps
    have he : (imY (mirrorIm x)).eps = -(imY x).eps := rfl
    have e1 : wrapReset (imY (mirrorIm x)).field = -wrapReset (imY x).field + 2 * Real.pi * ((k + a' + a : ℤ) : ℝ) := by
      rw [h1, h1', hk]; push_cast; ring
    have e2 : wrapReset (imY (mirrorIm x)).eps = -wrapReset (imY x).eps + 2 * Real.pi * ((b' + b : ℤ) : ℝ) := by
      rw [h2, h2', he]; push_cast; ring
    have hd : wrapReset (imY (mirrorIm x)).field - wrapReset (imY (mirrorIm x)).eps =
        -(wrapReset (imY x).field - wrapReset (imY x).eps) + 2 * Real.pi * ((k + a' + a - b' - b : ℤ) : ℝ) := by
      rw [e1, e2]; push_cast; ring
    simp only [dfimReset, (six_parts w).1, (six_parts w).2, (six_parts (swapSix w)).1, (six_parts (swapSix w)).2, swapSix_parts, three_ofFn,
      bind, Except.bind, phases_free, rotor_mirror, imTq_mirror, hd]
    simp only [e1, qInv_turns, abcToDq_fullTurns, abcToDq_reflect, qInv_reflect]
    rw [show (imY (mirrorIm x)).mech = [-x 0] from rfl, show (imY x).mech = [x 0] from rfl, show (imY (mirrorIm x)).i = reflect (imY x).i from rfl,
      qInv_reflect, t32_reflect, t32_reflect]
    exact dfim_image_mirror hl _ _ _ _ _ _ _ _ _ _ _ _ _ ⟨_, e2⟩

/-- C136 for the doubly fed motor: the phases b and c of the stator, and those of the rotor, are interchanged. -/
theorem c136_dfim (mp : ImParams ℝ) {P : Type} (src : Source P) (load : AnyLoad) (limits : List ℝ) (T I T' I' : ℝ) (h1 : OneVoltage src)
    (hl : EvenLimits dfimStates dfimStates limits swappedIm) :
    SameCourse finiteMulti src load load.opposite (imTorque mp)
      (fun x (u : (Fin 2 → ℝ) × (Fin 2 → ℝ)) w => imOde mp x !![u.1 0, u.1 1; u.2 0, u.2 1] w)
      imY ofImY (asIs (dfimFrame mp.lm mp.lsigr (imTq mp))) (dfimReset mp.lm mp.lsigr (imTq mp)) limits
      [.b6 (B6.new T I), .b6 (B6.new T' I')] mirrorIm (Both (SwitchesMoved swapBC) (SwitchesMoved swapBC))
      (Image dfimStates dfimStates limits swappedIm oppositeSignIm 0) ∧
    SameCourse contMulti src load load.opposite (imTorque mp)
      (fun x (u : (Fin 2 → ℝ) × (Fin 2 → ℝ)) w => imOde mp x !![u.1 0, u.1 1; u.2 0, u.2 1] w)
      imY ofImY (dfimFrame mp.lm mp.lsigr (imTq mp)) (dfimReset mp.lm mp.lsigr (imTq mp)) limits
      [.b6 (CB6.new T I), .b6 (CB6.new T' I')] mirrorIm (BothActions 3 3 (DutiesMoved swapBC) (DutiesMoved swapBC))
      (Image dfimStates dfimStates limits swappedIm oppositeSignIm 0) := by
  have hm := funext mirrorIm_eq
  have hrhs := im_rhs_mirror mp load (U := (Fin 2 → ℝ) × (Fin 2 → ℝ)) (onU := fun u => (reflect u.1, reflect u.2)) (us := Prod.fst)
    (ur := Prod.snd) (fun _ => rfl) (fun _ => rfl)
  have hd : ∀ c c' : FConv ℝ, LegsMoved LegFine swapBC c c' → c.dim = 3 ∧ c'.dim = 3 := by
    rintro _ _ ⟨b, b', rfl, rfl, -⟩
    exact ⟨rfl, rfl⟩
  have hd' : ∀ c c' : CConv ℝ, CLegsMoved swapBC c c' → c.dim = 3 ∧ c'.dim = 3 := by
    rintro _ _ ⟨b, b', rfl, rfl, -⟩
    exact ⟨rfl, rfl⟩
  refine ⟨sameCourse_of ⟨h1, multi_twin (b6_twin swapBC) (b6_twin swapBC) hd hd, ?_, imY_back, hrhs⟩
      ⟨_, _, _, _, rfl, rfl, fresh_b6 swapBC T I, fresh_b6 swapBC T' I'⟩ mirrorIm_eq,
    sameCourse_of ⟨h1, cmulti_twin (cb6_twin swapBC) (cb6_twin swapBC) hd' hd', ?_, imY_back, hrhs⟩
      ⟨_, _, _, _, rfl, rfl, fresh_cb6 swapBC T I, fresh_cb6 swapBC T' I'⟩ mirrorIm_eq⟩
  · rw [hm]
    exact dfim_frames_mirror mp (by exact ⟨rfl, fun _ _ => rfl, rfl, rfl, rfl⟩) hl
  · rw [hm]
    exact dfim_frames_mirror mp (by exact ⟨rfl, fun _ _ => rfl, rfl, rfl, rfl⟩) hl

/-! ## The externally excited synchronous motor -/

/-- Without the entries `u_sq` and `u_e`: the reset interchanges the voltages (C34), so that these entries contain other voltages, with another
sign. -/
def eesmTold : List String :=
  ["omega", "torque", "i_a", "i_b", "i_c", "i_sd", "i_sq", "i_e", "u_a", "u_b", "u_c", "u_sd", "epsilon", "u_sup"]

/-- currents and angle -/
def flipEesm : (Fin 4 → ℝ) →ₗ[ℝ] Fin 4 → ℝ where
  toFun z := ![z 0, -z 1, z 2, -z 3]
  map_add' x y := by
    funext i
    fin_cases i <;> simp <;> ring
  map_smul' c x := by
    funext i
    fin_cases i <;> simp

/-- the state of the solver, seen from the other direction -/
def mirrorEesm (x : Fin (1 + 4) → ℝ) : Fin (1 + 4) → ℝ := ![-x 0, x 1, -x 2, x 3, -x 4]

theorem mirrorEesm_eq (x : Fin (1 + 4) → ℝ) : blockMap (-1) flipEesm x + Fin.append 0 0 = mirrorEesm x := by
  funext i
  fin_cases i <;> simp [blockMap, mirrorEesm, flipEesm, Fin.append, Fin.addCases, Fin.subNat]

theorem eesmY_mirror (x : Fin (1 + 4) → ℝ) : eesmY (mirrorEesm x) = ⟨[-x 0], reflect ![x 1, x 2], x 3, -x 4⟩ := rfl

theorem eesm_image_mirror {limits : List ℝ} (hl : EvenLimits eesmStates eesmTold limits swapped) (om T : ℝ) (i : Fin 3 → ℝ) (idq : Fin 2 → ℝ)
    (w : Fin 3 → ℝ) (ie x y z y' z' e e' v : ℝ) (he : ∃ k : ℤ, e' = -e + 2 * Real.pi * k) :
    Echo (Image eesmStates eesmTold limits swapped oppositeSign 0)
      (divLimits ([om] ++ [T] ++ l3 i ++ l2 idq ++ [ie] ++ List.ofFn w ++ [x, y, z] ++ [e] ++ [v]) limits)
      (divLimits ([-om] ++ [-T] ++ l3 (i ∘ swapBC) ++ l2 (reflect idq) ++ [ie] ++ List.ofFn (w ∘ swapBC) ++ [x, y', z'] ++ [e'] ++ [v]) limits) := by
  refine echo_image hl (by simp [eesmStates_eq, l3, l2]) (by simp [eesmStates_eq, l3, l2]) ?_ ?_
  · intro n hn hne
    simp only [eesmTold, List.mem_cons, List.not_mem_nil, or_false] at hn
    rcases hn with rfl | rfl | rfl | rfl | rfl | rfl | rfl | rfl | rfl | rfl | rfl | rfl | rfl | rfl <;>
      first
        | exact absurd rfl hne
        | simp [eesmStates_eq, readState, swapped, oppositeSign, l3, l2, swapBC, reflect]
  · intro _
    obtain ⟨k, hk⟩ := he
    refine ⟨k, ?_⟩
    simp [eesmStates_eq, readState, oppositeSign, l3, l2, hk]

/-- phases b and c; the excitation -/
def swapThree : (Fin (3 + 1) → ℝ) → Fin (3 + 1) → ℝ := onBoth (fun w => w ∘ swapBC) (fun w => w)

theorem swapThree_parts (w : Fin (3 + 1) → ℝ) : (fun k : Fin 3 => swapThree w (Fin.castAdd 1 k)) = (fun k => w (Fin.castAdd 1 k)) ∘ swapBC ∧
    swapThree w 3 = w 3 := by
  have h3 : ∀ w : Fin (3 + 1) → ℝ, w 3 = w (Fin.natAdd 3 0) := fun _ => rfl
  constructor
  · funext k
    simp [swapThree, onBoth]
  · rw [h3 (swapThree w), h3 w]
    simp only [swapThree, onBoth, Fin.append_right]

/-- the transverse voltage, negated -/
def flipU (u : List ℝ) : List ℝ := [u.getD 0 0, -u.getD 1 0, u.getD 2 0]

theorem eesmTq_mirror (ee : EesmParams ℝ) (x : Fin (1 + 4) → ℝ) : eesmTq ee (eesmY (mirrorEesm x)) = -eesmTq ee (eesmY x) := by
  rw [eesmY_mirror]
  simp [eesmTq, eesmTorque, reflect, eesmY]

theorem eesm_frames_mirror {A : Type} (ee : EesmParams ℝ) {f : Frame ℝ EesmY (List ℝ) A} (hf : LikeEesm (eesmTq ee) f) {limits : List ℝ}
    (hl : EvenLimits eesmStates eesmTold limits swapped) {asked : A → A → Prop} :
    Frames f (eesmReset (eesmTq ee)) limits eesmY mirrorEesm swapThree flipU asked asked
      (Image eesmStates eesmTold limits swapped oppositeSign 0) := by
  refine ⟨fun w v => ?_, fun x => ⟨Fin.append (dqToAbc ![x 1, x 2] (x 4)) fun _ => x 3, ?_, ?_⟩, ?_, ?_, ?_, ?_, ?_⟩
  · funext k
    refine Fin.addCases (fun k => ?_) (fun k => ?_) k <;> simp only [swapThree, onBoth, Fin.append_left, Fin.append_right, Function.comp]
  · rw [hf.iIn, List.ofFn_fin_append, ← l3_ofFn]
    rfl
  · rw [hf.iIn]
    simp only [eesmFrame, eesmY_mirror, dqToAbc_reflect]
    rw [swapThree, onBoth_append, List.ofFn_fin_append, ← l3_ofFn]
    rfl
  · intro x a a' h
    rw [hf.action, hf.action]
    exact h
  · intro x w
    rw [hf.loopU]
    simp only [eesmFrame, three_short, Except.map]
    rfl
  · intro x w
    rw [hf.lastU]
    simp only [eesmFrame, four_parts w, four_parts (swapThree w), parts_take, parts_drop, three_ofFn, swapThree_parts, eesmY_mirror, Except.map,
      abcToDq_reflect]
    rfl
  · intro x z w v
    rw [hf.report]
    simp only [eesmFrame, four_parts w, four_parts (swapThree w), parts_take, parts_drop, three_ofFn, swapThree_parts, Except.map, Except.bind,
      eesmTq_mirror]
    simp only [eesmY_mirror, abcToDq_reflect, dqToAbc_reflect]
    have h := eesm_image_mirror hl (z 0) (eesmTq ee (eesmY z)) (dqToAbc (eesmY z).i (eesmY x).eps) (eesmY z).i
      (fun k => w (Fin.castAdd 1 k)) (z 3) (abcToDq (fun k => w (Fin.castAdd 1 k)) (eesmY x).eps 0)
      (abcToDq (fun k => w (Fin.castAdd 1 k)) (eesmY x).eps 1) (w 3) (-abcToDq (fun k => w (Fin.castAdd 1 k)) (eesmY x).eps 1) (w 3)
      (wrap (z 4)) (wrap (-z 4)) v (wrap_neg _)
    simp only [l2, List.append_assoc, List.cons_append, List.nil_append] at h ⊢
    exact h
  · intro x w v
    obtain ⟨k, hk⟩ := wrapReset_turns (x 4)
    obtain ⟨k', hk'⟩ := wrapReset_turns (-x 4)
    have h1 : wrapReset (eesmY x).eps = x 4 + 2 * Real.pi * k := hk
    have h := eesm_image_mirror hl (x 0) (eesmTq ee (eesmY x)) (dqToAbc (eesmY x).i (x 4)) (eesmY x).i
      (fun k => w (Fin.castAdd 1 k)) (x 3) (w 3) (abcToDq (fun k => w (Fin.castAdd 1 k)) (x 4) 0)
      (abcToDq (fun k => w (Fin.castAdd 1 k)) (x 4) 1) (abcToDq (fun k => w (Fin.castAdd 1 k)) (x 4) 0)
      (-abcToDq (fun k => w (Fin.castAdd 1 k)) (x 4) 1) (x 4 + 2 * Real.pi * k) (-x 4 + 2 * Real.pi * k') v
      ⟨k' + k, by push_cast; ring⟩
    simp only [eesmReset, four_parts w, four_parts (swapThree w), parts_take, three_ofFn, swapThree_parts, Except.map, Except.bind,
      eesmTq_mirror]
    simp only [eesmY_mirror, hk', h1, abcToDq_fullTurns, dqToAbc_turns, abcToDq_reflect, dqToAbc_reflect]
    simp only [l2, List.append_assoc, List.cons_append, List.nil_append] at h ⊢
    exact h

theorem eesm_ode (ee : EesmParams ℝ) (z : Fin 4 → ℝ) (u : Fin 3 → ℝ) (w : ℝ) : eesmOde ee (flipEesm z) ![u 0, -u 1, u 2] (-w) =
    flipEesm (eesmOde ee z u w) := by
  have key : ∀ (z : Fin 4 → ℝ) (u : Fin 3 → ℝ) (w : ℝ), eesmOde ee z u w =
      ![(-ee.rs / ee.sigma * z 0 + ee.lM * ee.rE / (ee.sigma * ee.lE) * ee.ik * z 2 + 1 / ee.sigma * u 0 -
          ee.lM * ee.k / (ee.sigma * ee.lE) * u 2 + ee.lq * ee.p / ee.sigma * (w * z 1)) / ee.ld,
        (-ee.rs * z 1 + u 1 - ee.ld * ee.p * (w * z 0) - ee.p * ee.lM * ee.ik * (w * z 2)) / ee.lq,
        (ee.lM * ee.rs / (ee.sigma * ee.ld) * z 0 - ee.rE / ee.sigma * ee.ik * z 2 - ee.lM / (ee.sigma * ee.ld) * u 0 + ee.k / ee.sigma * u 2 -
          ee.p * ee.lM * ee.lq / (ee.sigma * ee.ld) * (w * z 1)) / (ee.lE * ee.ik), ee.p * w] := by
    intro z u w
    funext i
    fin_cases i <;> simp [eesmOde, eesmConstants, rowsDiv, Matrix.mulVec, dotProduct, Fin.sum_univ_succ] <;> ring
  rw [key, key]
  funext i
  fin_cases i
  · simp [flipEesm]
  · simp [flipEesm]; ring
  · simp [flipEesm]
  · simp [flipEesm]

/-- C136 for the externally excited synchronous motor: the excitation remains as it is. -/
theorem c136_eesm_partial (ee : EesmParams ℝ) {P : Type} (src : Source P) (load : AnyLoad) (limits : List ℝ) (T I : ℝ) (h1 : OneVoltage src)
    (hl : EvenLimits eesmStates eesmTold limits swapped) (ex : FConv ℝ) (hx : AllLegs LegFine ex) (cx : CConv ℝ) (hc : cx.dim = 1) :
    SameCourse finiteMulti src load load.opposite (eesmTorque ee) (fun x (u : List ℝ) w => eesmOde ee x (fun i => u.getD i 0) w) eesmY ofEesmY
      (asIs (eesmFrame (eesmTq ee))) (eesmReset (eesmTq ee)) limits [.b6 (B6.new T I), ex] mirrorEesm
      (Both (SwitchesMoved swapBC) fun a a' => a = a' ∧ a < ex.nActions) (Image eesmStates eesmTold limits swapped oppositeSign 0) ∧
    SameCourse contMulti src load load.opposite (eesmTorque ee) (fun x (u : List ℝ) w => eesmOde ee x (fun i => u.getD i 0) w) eesmY ofEesmY
      (eesmFrame (eesmTq ee)) (eesmReset (eesmTq ee)) limits [.b6 (CB6.new T I), cx] mirrorEesm
      (BothActions 3 1 (DutiesMoved swapBC) fun a a' => a = a' ∧ a.length = 1)
      (Image eesmStates eesmTold limits swapped oppositeSign 0) := by
  have hm := funext mirrorEesm_eq
  have hrhs : ∀ (u : List ℝ) t x, drive (eesmTorque ee) (fun x (u : List ℝ) w => eesmOde ee x (fun i => u.getD i 0) w) load.opposite none
      (flipU u) t (blockMap (-1) flipEesm x + Fin.append 0 0) =
      blockMap (-1) flipEesm (drive (eesmTorque ee) (fun x (u : List ℝ) w => eesmOde ee x (fun i => u.getD i 0) w) load none u t x) := by
    refine rhs_block (fun z => ?_) (fun z u w => ?_) (mech_opposite load)
    · rw [add_zero, neg_one_mul]
      simp [eesmTorque, flipEesm]
    · rw [add_zero, neg_one_mul, ← eesm_ode]
      congr 1
      funext i
      fin_cases i <;> rfl
  have hd : ∀ c c' : FConv ℝ, LegsMoved LegFine swapBC c c' → c.dim = 3 ∧ c'.dim = 3 := by
    rintro _ _ ⟨b, b', rfl, rfl, -⟩
    exact ⟨rfl, rfl⟩
  have hd' : ∀ c c' : CConv ℝ, CLegsMoved swapBC c c' → c.dim = 3 ∧ c'.dim = 3 := by
    rintro _ _ ⟨b, b', rfl, rfl, -⟩
    exact ⟨rfl, rfl⟩
  have hk : ∀ c c' : FConv ℝ, (c = c' ∧ c.nActions = ex.nActions ∧ AllLegs LegFine c) → c.dim = 1 ∧ c'.dim = 1 := by
    rintro c _ ⟨rfl, -, h⟩
    cases c with
    | b6 b => exact h.elim
    | _ => exact ⟨rfl, rfl⟩
  refine ⟨sameCourse_of ⟨h1, multi_twin (b6_twin swapBC) (keep_twin ex.nActions) hd hk, ?_, eesmY_back, hrhs⟩
      ⟨_, _, _, _, rfl, rfl, fresh_b6 swapBC T I, rfl, rfl, hx⟩ mirrorEesm_eq,
    sameCourse_of ⟨h1, cmulti_twin (cb6_twin swapBC) ckeep_twin hd' (by rintro c _ ⟨rfl, h⟩; exact ⟨h, h⟩), ?_, eesmY_back, hrhs⟩
      ⟨_, _, _, _, rfl, rfl, fresh_cb6 swapBC T I, rfl, hc⟩ mirrorEesm_eq⟩
  · rw [hm]
    exact eesm_frames_mirror ee (by exact ⟨rfl, fun _ _ => rfl, rfl, rfl, rfl⟩) hl
  · rw [hm]
    exact eesm_frames_mirror ee (by exact ⟨rfl, fun _ _ => rfl, rfl, rfl, rfl⟩) hl

/-! ## DC motors -/

/-- the torque of a DC motor system -/
def dcTq {m : ℕ} (torque : (Fin m → ℝ) → ℝ) (l : List ℝ) : ℝ := torque fun i => l.getD i 0

/-- the signs of the states: `s` for speed and torque, `a` for currents and voltages of the armature (or of the only circuit), `e` for those of
the excitation -/
def dcSign (s a e : ℝ) (n : String) : ℝ :=
  if n ∈ ["omega", "torque"] then s else if n ∈ ["i", "u", "i_a", "u_a"] then a else if n ∈ ["i_e", "u_e"] then e else 1

/-- limits as long as the states -/
theorem same_limits {names limits} (h : limits.length = names.length) (he : "epsilon" ∉ names) : EvenLimits names names limits id :=
  ⟨h, fun _ _ => rfl, fun h' => (he h').elim⟩

theorem dcY_one (x : Fin (1 + 1) → ℝ) : dcY x = ⟨[x 0], [x 1]⟩ := by
  simp only [dcY, List.ofFn_succ, List.ofFn_zero]
  rfl

theorem dcY_two (x : Fin (1 + 2) → ℝ) : dcY x = ⟨[x 0], [x 1, x 2]⟩ := by
  simp only [dcY, List.ofFn_succ, List.ofFn_zero]
  rfl

theorem dcY_one_back (x : Fin (1 + 1) → ℝ) : ofDcY (dcY x) = x := by
  rw [dcY_one]
  funext i
  fin_cases i <;> rfl

theorem dcY_two_back (x : Fin (1 + 2) → ℝ) : ofDcY (dcY x) = x := by
  rw [dcY_two]
  funext i
  fin_cases i <;> rfl

/-- one circuit: the opposite current -/
def oppositeOne (s : ℝ) (x : Fin (1 + 1) → ℝ) : Fin (1 + 1) → ℝ := ![s * x 0, -x 1]

theorem oppositeOne_eq (s : ℝ) (x : Fin (1 + 1) → ℝ) : blockMap s (-LinearMap.id) x + Fin.append 0 0 = oppositeOne s x := by
  funext i
  fin_cases i <;> simp [blockMap, oppositeOne, Fin.append, Fin.addCases, Fin.subNat]

/-- the names of the states of permanently excited and series motor systems -/
def dcOneStates : List String := dcNames ["omega"] ["i"] ["u"]

theorem one_list (w : Fin 1 → ℝ) : List.ofFn w = [w 0] := by simp

theorem dc_image_one {limits : List ℝ} (hl : limits.length = 5) (s om T i u v : ℝ) :
    Echo (Image dcOneStates dcOneStates limits id (dcSign s (-1) 1) 0) (divLimits ([om] ++ [T] ++ [i] ++ [u] ++ [v]) limits)
      (divLimits ([s * om] ++ [s * T] ++ [-i] ++ [-u] ++ [v]) limits) := by
  have he : dcOneStates = ["omega", "torque", "i", "u", "u_sup"] := rfl
  refine echo_image (same_limits (by rw [hl]; rfl) (by rw [he]; simp)) rfl rfl ?_ (fun h => absurd h (by rw [he]; simp))
  intro n hn _
  rw [he] at hn
  simp only [List.mem_cons, List.not_mem_nil, or_false] at hn
  rcases hn with rfl | rfl | rfl | rfl | rfl <;> simp [he, readState, dcSign]

theorem dc_frames_one {A : Type} {s : ℝ} {torque : (Fin 1 → ℝ) → ℝ} (ht : ∀ z, torque (-z) = s * torque z) {limits : List ℝ}
    (hl : limits.length = 5) {asked : A → A → Prop} :
    Frames (dcFrame id (dcTq torque) [0] 1 1) (dcResetReport (dcTq torque) [0]) limits dcY (oppositeOne s) (fun w : Fin 1 → ℝ => -w)
      (List.map Neg.neg) asked asked (Image dcOneStates dcOneStates limits id (dcSign s (-1) 1) 0) := by
  have hq : ∀ a, dcTq torque [-a] = s * dcTq torque [a] := fun a => by
    rw [dcTq, dcTq, ← ht]
    congr 1
    funext i
    fin_cases i
    rfl
  refine ⟨fun w v => by funext k; simp, fun x => ⟨fun _ => x 1, ?_, ?_⟩, fun _ _ _ h => h, ?_, ?_, ?_, ?_⟩
  · simp [dcFrame, dcY_one]
  · simp [dcFrame, dcY_one, oppositeOne]
  · intro x w
    simp only [dcFrame, one_list]
    rfl
  · intro x w
    simp only [dcFrame, one_list]
    rfl
  · intro x z w v
    have h := dc_image_one hl s (z 0) (dcTq torque [z 1]) (z 1) (w 0) v
    rw [← hq] at h
    rw [dcY_one, dcY_one, dcY_one, dcY_one, one_list, one_list]
    exact h
  · intro x w v
    have h := dc_image_one hl s (x 0) (dcTq torque [x 1]) (x 1) (w 0) v
    rw [← hq] at h
    rw [dcY_one, dcY_one, one_list, one_list]
    exact h

/-- Systems with one circuit and four quadrant converter: opposite voltage and current, `s` times speed and torque. -/
def OneReverses (s : ℝ) (other : AnyLoad → AnyLoad) (torque : (Fin 1 → ℝ) → ℝ) (ode : (Fin 1 → ℝ) → (Fin 1 → ℝ) → ℝ → Fin 1 → ℝ) : Prop :=
  ∀ {P : Type} (src : Source P) (load : AnyLoad) (limits : List ℝ) (T I : ℝ), OneVoltage src → limits.length = 5 →
    SameCourse finitePower src load (other load) torque (fun x (u : List ℝ) w => ode x (fun i => u.getD i 0) w) dcY ofDcY
      (dcFrame id (dcTq torque) [0] 1 1) (dcResetReport (dcTq torque) [0]) limits (.four (FourQC.new T I)) (oppositeOne s) SwitchesOpposite
      (Image dcOneStates dcOneStates limits id (dcSign s (-1) 1) 0) ∧
    SameCourse contPower src load (other load) torque (fun x (u : List ℝ) w => ode x (fun i => u.getD i 0) w) dcY ofDcY
      (dcFrame id (dcTq torque) [0] 1 1) (dcResetReport (dcTq torque) [0]) limits (.four (CFour.new T I)) (oppositeOne s)
      (fun a a' => ∃ x, a = [x] ∧ a' = [-x]) (Image dcOneStates dcOneStates limits id (dcSign s (-1) 1) 0)

theorem fresh_four (T I : ℝ) : SidesSwapped LegFine (.four (FourQC.new T I)) (.four (FourQC.new T I)) :=
  ⟨_, _, rfl, rfl, rfl, rfl, show (0 : ℕ) < 3 by norm_num, show (0 : ℕ) < 3 by norm_num⟩

theorem fresh_cfour (T I : ℝ) : CSides (.four (CFour.new T I)) (.four (CFour.new T I)) := ⟨T, I, _, _, _, _, _, _, rfl, rfl⟩

theorem map_neg_get {n : ℕ} (u : List ℝ) : (fun i : Fin n => (u.map Neg.neg).getD i 0) = -fun i : Fin n => u.getD i 0 := by
  funext i
  simp only [List.getD_eq_getElem?_getD, List.getElem?_map, Pi.neg_apply]
  cases u[(i : ℕ)]? <;> simp

theorem one_reverses {s : ℝ} {other : AnyLoad → AnyLoad} (ho : ∀ load t w T, (other load).mech t (fun _ => s * w) (s * T) 0 =
      s * load.mech t (fun _ => w) T 0) {torque : (Fin 1 → ℝ) → ℝ} {ode : (Fin 1 → ℝ) → (Fin 1 → ℝ) → ℝ → Fin 1 → ℝ}
    (ht : ∀ z, torque (-z) = s * torque z) (hz : ∀ z u w, ode (-z) (-u) (s * w) = -ode z u w) : OneReverses s other torque ode := by
  intro P src load limits T I h1 hl
  have hm := funext (oppositeOne_eq s)
  have hrhs : ∀ (u : List ℝ) t x, drive torque (fun x (u : List ℝ) w => ode x (fun i => u.getD i 0) w) (other load) none (u.map Neg.neg) t
      (blockMap s (-LinearMap.id) x + Fin.append 0 0) =
      blockMap s (-LinearMap.id) (drive torque (fun x (u : List ℝ) w => ode x (fun i => u.getD i 0) w) load none u t x) := by
    refine rhs_block (fun z => ?_) (fun z u w => ?_) (ho load)
    · rw [add_zero]
      exact ht z
    · rw [add_zero, map_neg_get]
      exact hz _ _ _
  refine ⟨sameCourse_of ⟨h1, four_twin, ?_, dcY_one_back, hrhs⟩ (fresh_four T I) (oppositeOne_eq s),
    sameCourse_of ⟨h1, cfour_twin, ?_, dcY_one_back, hrhs⟩ (fresh_cfour T I) (oppositeOne_eq s)⟩
  · rw [hm]
    exact dc_frames_one ht hl
  · rw [hm]
    exact dc_frames_one ht hl

/-- C136 for the permanently excited motor, which turns in the opposite direction, and the series motor, which does not. -/
theorem c136_one (pe : PermExParams ℝ) (mp : DcParams ℝ) : OneReverses (-1) AnyLoad.opposite (permExTorque pe) (permExOde pe) ∧
    OneReverses 1 id (seriesTorque mp) (seriesOde mp) := by
  refine ⟨one_reverses mech_opposite (fun z => by simp [permExTorque]) fun z u w => ?_,
    one_reverses mech_same (fun z => by simp [seriesTorque, dcTorque]) fun z u w => ?_⟩
  · have key : ∀ (z u : Fin 1 → ℝ) (w : ℝ), permExOde pe z u w = ![(-pe.psiE * w - pe.ra * z 0 + u 0) / pe.la] := by
      intro z u w
      funext i
      fin_cases i
      simp [permExOde, permExConstants, rowsDiv, Matrix.mulVec, dotProduct, Fin.sum_univ_succ]
      ring
    rw [key, key]
    funext i
    fin_cases i
    simp
    ring
  · have key : ∀ (z u : Fin 1 → ℝ) (w : ℝ), seriesOde mp z u w =
        ![((-mp.ra - mp.re) * z 0 - mp.lePrime * (w * z 0) + u 0) / (mp.la + mp.le)] := by
      intro z u w
      funext i
      fin_cases i
      simp [seriesOde, seriesConstants, rowsDiv, Matrix.mulVec, dotProduct, Fin.sum_univ_succ]
      ring
    rw [key, key]
    funext i
    fin_cases i
    simp
    ring

/-! ### Two windings -/

/-- armature and excitation, with signs -/
def flipTwo (a e : ℝ) : (Fin 2 → ℝ) →ₗ[ℝ] Fin 2 → ℝ where
  toFun z := ![a * z 0, e * z 1]
  map_add' x y := by
    funext i
    fin_cases i <;> simp <;> ring
  map_smul' c x := by
    funext i
    fin_cases i <;> simp <;> ring

/-- the state of the solver, with signs -/
def signsTwo (a e : ℝ) (x : Fin (1 + 2) → ℝ) : Fin (1 + 2) → ℝ := ![a * e * x 0, a * x 1, e * x 2]

theorem signsTwo_eq (a e : ℝ) (x : Fin (1 + 2) → ℝ) : blockMap (a * e) (flipTwo a e) x + Fin.append 0 0 = signsTwo a e x := by
  funext i
  fin_cases i <;> simp [blockMap, signsTwo, flipTwo, Fin.append, Fin.addCases, Fin.subNat]

theorem dc_ode (mp : DcParams ℝ) (z u : Fin 2 → ℝ) (w : ℝ) : dcOde mp z u w =
    ![(-mp.ra * z 0 - mp.lePrime * (w * z 1) + u 0) / mp.la, (-mp.re * z 1 + u 1) / mp.le] := by
  funext i
  fin_cases i <;> simp [dcOde, dcConstants, rowsDiv, Matrix.mulVec, dotProduct, Fin.sum_univ_succ] <;> ring

theorem dc_ode_signs (mp : DcParams ℝ) {a e : ℝ} (he : e * e = 1) (z u : Fin 2 → ℝ) (w : ℝ) :
    dcOde mp (flipTwo a e z) ![a * u 0, e * u 1] (a * e * w) = flipTwo a e (dcOde mp z u w) := by
  rw [dc_ode, dc_ode]
  funext i
  fin_cases i
  · simp only [flipTwo, LinearMap.coe_mk, AddHom.coe_mk, Matrix.cons_val_zero, Matrix.cons_val_one, Fin.zero_eta]
    linear_combination (-(a * mp.lePrime * w * z 1) / mp.la) * he
  · simp only [flipTwo, LinearMap.coe_mk, AddHom.coe_mk, Matrix.cons_val_zero, Matrix.cons_val_one, Fin.mk_one]
    ring

/-- the names of the states of shunt motor systems -/
def shuntStates : List String := dcNames ["omega"] ["i_a", "i_e"] ["u"]
/-- the names of the states of externally excited motor systems -/
def extExStates : List String := dcNames ["omega"] ["i_a", "i_e"] ["u_a", "u_e"]

theorem shunt_image {limits : List ℝ} (hl : limits.length = 6) (om T i j u v : ℝ) :
    Echo (Image shuntStates shuntStates limits id (dcSign 1 (-1) (-1)) 0) (divLimits ([om] ++ [T] ++ [i, j] ++ [u] ++ [v]) limits)
      (divLimits ([om] ++ [T] ++ [-i, -j] ++ [-u] ++ [v]) limits) := by
  have he : shuntStates = ["omega", "torque", "i_a", "i_e", "u", "u_sup"] := rfl
  refine echo_image (same_limits (by rw [hl]; rfl) (by rw [he]; simp)) rfl rfl ?_ (fun h => absurd h (by rw [he]; simp))
  intro n hn _
  rw [he] at hn
  simp only [List.mem_cons, List.not_mem_nil, or_false] at hn
  rcases hn with rfl | rfl | rfl | rfl | rfl | rfl <;> simp [he, readState, dcSign]

theorem extEx_image {limits : List ℝ} (hl : limits.length = 7) (s a e om T i j u w v : ℝ) :
    Echo (Image extExStates extExStates limits id (dcSign s a e) 0) (divLimits ([om] ++ [T] ++ [i, j] ++ [u, w] ++ [v]) limits)
      (divLimits ([s * om] ++ [s * T] ++ [a * i, e * j] ++ [a * u, e * w] ++ [v]) limits) := by
  have he : extExStates = ["omega", "torque", "i_a", "i_e", "u_a", "u_e", "u_sup"] := rfl
  refine echo_image (same_limits (by rw [hl]; rfl) (by rw [he]; simp)) rfl rfl ?_ (fun h => absurd h (by rw [he]; simp))
  intro n hn _
  rw [he] at hn
  simp only [List.mem_cons, List.not_mem_nil, or_false] at hn
  rcases hn with rfl | rfl | rfl | rfl | rfl | rfl | rfl <;> simp [he, readState, dcSign]

theorem shunt_frames {A : Type} (mp : DcParams ℝ) {limits : List ℝ} (hl : limits.length = 6) {asked : A → A → Prop} :
    Frames (dcFrame (fun l => [l.getD 0 0 + l.getD 1 0]) (dcTq (dcTorque mp)) [0, 1] 1 1) (dcResetReport (dcTq (dcTorque mp)) [0, 1]) limits
      dcY (signsTwo (-1) (-1)) (fun w : Fin 1 → ℝ => -w) (List.map Neg.neg) asked asked
      (Image shuntStates shuntStates limits id (dcSign 1 (-1) (-1)) 0) := by
  have hy : ∀ x : Fin (1 + 2) → ℝ, dcY (signsTwo (-1) (-1) x) = ⟨[x 0], [-x 1, -x 2]⟩ := fun x => by
    rw [dcY_two]
    simp [signsTwo]
  have hq : ∀ a b, dcTq (dcTorque mp) [-a, -b] = dcTq (dcTorque mp) [a, b] := fun a b => by simp [dcTq, dcTorque]
  refine ⟨fun w v => by funext k; simp, fun x => ⟨fun _ => x 1 + x 2, ?_, ?_⟩, fun _ _ _ h => h, ?_, ?_, ?_, ?_⟩
  · simp [dcFrame, dcY_two]
  · simp [dcFrame, hy]
    ring
  · intro x w
    simp only [dcFrame, one_list]
    rfl
  · intro x w
    simp only [dcFrame, one_list]
    rfl
  · intro x z w v
    have h := shunt_image hl (z 0) (dcTq (dcTorque mp) [z 1, z 2]) (z 1) (z 2) (w 0) v
    rw [hy, hy, dcY_two, dcY_two, one_list, one_list]
    nth_rw 2 [← hq] at h
    exact h
  · intro x w v
    have h := shunt_image hl (x 0) (dcTq (dcTorque mp) [x 1, x 2]) (x 1) (x 2) (w 0) v
    rw [hy, dcY_two, one_list, one_list]
    nth_rw 2 [← hq] at h
    exact h

/-- C136 for the shunt motor: the opposite voltage turns the currents around, but not the direction of rotation. -/
theorem c136_shunt (mp : DcParams ℝ) {P : Type} (src : Source P) (load : AnyLoad) (limits : List ℝ) (T I : ℝ) (h1 : OneVoltage src)
    (hl : limits.length = 6) :
    SameCourse finitePower src load load (dcTorque mp) (fun x (u : List ℝ) w => shuntOde mp x (fun i => u.getD i 0) w) dcY ofDcY
      (dcFrame (fun l => [l.getD 0 0 + l.getD 1 0]) (dcTq (dcTorque mp)) [0, 1] 1 1) (dcResetReport (dcTq (dcTorque mp)) [0, 1]) limits
      (.four (FourQC.new T I)) (signsTwo (-1) (-1)) SwitchesOpposite (Image shuntStates shuntStates limits id (dcSign 1 (-1) (-1)) 0) ∧
    SameCourse contPower src load load (dcTorque mp) (fun x (u : List ℝ) w => shuntOde mp x (fun i => u.getD i 0) w) dcY ofDcY
      (dcFrame (fun l => [l.getD 0 0 + l.getD 1 0]) (dcTq (dcTorque mp)) [0, 1] 1 1) (dcResetReport (dcTq (dcTorque mp)) [0, 1]) limits
      (.four (CFour.new T I)) (signsTwo (-1) (-1)) (fun a a' => ∃ x, a = [x] ∧ a' = [-x])
      (Image shuntStates shuntStates limits id (dcSign 1 (-1) (-1)) 0) := by
  have hm := funext (signsTwo_eq (-1) (-1))
  have hrhs : ∀ (u : List ℝ) t x, drive (dcTorque mp) (fun x (u : List ℝ) w => shuntOde mp x (fun i => u.getD i 0) w) load none
      (u.map Neg.neg) t (blockMap (-1 * -1) (flipTwo (-1) (-1)) x + Fin.append 0 0) =
      blockMap (-1 * -1) (flipTwo (-1) (-1)) (drive (dcTorque mp) (fun x (u : List ℝ) w => shuntOde mp x (fun i => u.getD i 0) w) load none
        u t x) := by
    refine rhs_block (fun z => ?_) (fun z u w => ?_) (by simp)
    · rw [add_zero]
      simp [dcTorque, flipTwo]
    · rw [add_zero]
      have h := dc_ode_signs mp (a := -1) (e := -1) (by norm_num) z ![u.getD 0 0, u.getD 0 0] w
      have e0 : (u.map Neg.neg).getD 0 0 = -1 * u.getD 0 0 := by
        have := congrFun (map_neg_get (n := 1) u) 0
        simpa using this
      rw [shuntOde, shuntOde]
      change dcOde mp _ ![(u.map Neg.neg).getD 0 0, (u.map Neg.neg).getD 0 0] _ = _
      rw [e0, show (-1 * -1 * w : ℝ) = w by ring]
      rw [show (-1 * -1 * w : ℝ) = w by ring] at h
      exact h
  refine ⟨sameCourse_of ⟨h1, four_twin, ?_, dcY_two_back, hrhs⟩ (fresh_four T I) (signsTwo_eq _ _),
    sameCourse_of ⟨h1, cfour_twin, ?_, dcY_two_back, hrhs⟩ (fresh_cfour T I) (signsTwo_eq _ _)⟩
  · rw [hm]
    exact shunt_frames mp hl
  · rw [hm]
    exact shunt_frames mp hl

/-- both circuits, with signs -/
def signsBoth (a e : ℝ) : (Fin (1 + 1) → ℝ) → Fin (1 + 1) → ℝ := onBoth (fun w k => a * w k) (fun w k => e * w k)

theorem two_list (w : Fin (1 + 1) → ℝ) : List.ofFn w = [w 0, w 1] := by simp [List.ofFn_succ]

theorem signsBoth_list (a e : ℝ) (w : Fin (1 + 1) → ℝ) : List.ofFn (signsBoth a e w) = [a * w 0, e * w 1] := by
  rw [two_list]
  simp only [List.cons.injEq, and_true]
  exact ⟨rfl, rfl⟩

theorem extEx_frames {A : Type} (mp : DcParams ℝ) (a e : ℝ) {limits : List ℝ} (hl : limits.length = 7) {asked : A → A → Prop} :
    Frames (dcFrame id (dcTq (dcTorque mp)) [0, 1] 2 1) (dcResetReport (dcTq (dcTorque mp)) [0, 1]) limits
      dcY (signsTwo a e) (signsBoth a e) (fun u => [a * u.getD 0 0, e * u.getD 1 0]) asked asked
      (Image extExStates extExStates limits id (dcSign (a * e) a e) 0) := by
  have hy : ∀ x : Fin (1 + 2) → ℝ, dcY (signsTwo a e x) = ⟨[a * e * x 0], [a * x 1, e * x 2]⟩ := fun x => by
    rw [dcY_two]
    simp [signsTwo]
  have hq : ∀ i j, dcTq (dcTorque mp) [a * i, e * j] = a * e * dcTq (dcTorque mp) [i, j] := fun i j => by
    simp [dcTq, dcTorque]
    ring
  refine ⟨fun w v => ?_, fun x => ⟨![x 1, x 2], ?_, ?_⟩, fun _ _ _ h => h, ?_, ?_, ?_, ?_⟩
  · funext k
    refine Fin.addCases (fun k => ?_) (fun k => ?_) k <;> simp only [signsBoth, onBoth, Fin.append_left, Fin.append_right, mul_assoc]
  · simp [dcFrame, dcY_two]
  · rw [signsBoth_list]
    simp [dcFrame, hy]
  · intro x w
    simp only [dcFrame, two_list]
    rfl
  · intro x w
    simp only [dcFrame, two_list]
    rfl
  · intro x z w v
    have h := extEx_image hl (a * e) a e (z 0) (dcTq (dcTorque mp) [z 1, z 2]) (z 1) (z 2) (w 0) (w 1) v
    rw [← hq] at h
    rw [hy, hy, dcY_two, dcY_two, two_list, signsBoth_list]
    exact h
  · intro x w v
    have h := extEx_image hl (a * e) a e (x 0) (dcTq (dcTorque mp) [x 1, x 2]) (x 1) (x 2) (w 0) (w 1) v
    rw [← hq] at h
    rw [hy, dcY_two, two_list, signsBoth_list]
    exact h

theorem extEx_rhs (mp : DcParams ℝ) {a e : ℝ} (he : e * e = 1) {load load' : AnyLoad}
    (hl : ∀ t w T, load'.mech t (fun _ => a * e * w) (a * e * T) 0 = a * e * load.mech t (fun _ => w) T 0) (u : List ℝ) (t : ℝ)
    (x : Fin (1 + 2) → ℝ) :
    drive (dcTorque mp) (fun x (u : List ℝ) w => dcOde mp x (fun i => u.getD i 0) w) load' none ((fun u => [a * u.getD 0 0, e * u.getD 1 0]) u) t
      (blockMap (a * e) (flipTwo a e) x + Fin.append 0 0) =
    blockMap (a * e) (flipTwo a e) (drive (dcTorque mp) (fun x (u : List ℝ) w => dcOde mp x (fun i => u.getD i 0) w) load none u t x) := by
  refine rhs_block (onU := fun u : List ℝ => [a * u.getD 0 0, e * u.getD 1 0]) (fun z => ?_) (fun z u w => ?_) hl u t x
  · rw [add_zero]
    simp [dcTorque, flipTwo]
    ring
  · rw [add_zero, ← dc_ode_signs mp he]
    congr 1
    funext i
    fin_cases i <;> rfl

theorem neg_signs : (fun w : Fin 1 → ℝ => -w) = fun w k => -1 * w k := by
  funext w k
  simp

theorem keep_signs : (fun w : Fin 1 → ℝ => w) = fun w k => 1 * w k := by
  funext w k
  simp

/-- Externally excited motor systems with switched converters `c0`, `c1` for armature and excitation, whose voltages get the signs `a` and `e`. -/
def ExtExSigns (mp : DcParams ℝ) (a e : ℝ) (other : AnyLoad → AnyLoad) (c0 c1 : FConv ℝ) (m0 m1 : ℕ → ℕ → Prop) : Prop :=
  ∀ {P : Type} (src : Source P) (load : AnyLoad) (limits : List ℝ), OneVoltage src → limits.length = 7 →
    SameCourse finiteMulti src load (other load) (dcTorque mp) (fun x (u : List ℝ) w => dcOde mp x (fun i => u.getD i 0) w) dcY ofDcY
      (dcFrame id (dcTq (dcTorque mp)) [0, 1] 2 1) (dcResetReport (dcTq (dcTorque mp)) [0, 1]) limits [c0, c1] (signsTwo a e) (Both m0 m1)
      (Image extExStates extExStates limits id (dcSign (a * e) a e) 0)

/-- the same with averaged converters -/
def ExtExSignsCont (mp : DcParams ℝ) (a e : ℝ) (other : AnyLoad → AnyLoad) (c0 c1 : CConv ℝ) (m0 m1 : List ℝ → List ℝ → Prop) : Prop :=
  ∀ {P : Type} (src : Source P) (load : AnyLoad) (limits : List ℝ), OneVoltage src → limits.length = 7 →
    SameCourse contMulti src load (other load) (dcTorque mp) (fun x (u : List ℝ) w => dcOde mp x (fun i => u.getD i 0) w) dcY ofDcY
      (dcFrame id (dcTq (dcTorque mp)) [0, 1] 2 1) (dcResetReport (dcTq (dcTorque mp)) [0, 1]) limits [c0, c1] (signsTwo a e)
      (BothActions 1 1 m0 m1) (Image extExStates extExStates limits id (dcSign (a * e) a e) 0)

theorem extEx_signs (mp : DcParams ℝ) {a e : ℝ} (he : e * e = 1) {other : AnyLoad → AnyLoad}
    (hl : ∀ load t w T, (other load).mech t (fun _ => a * e * w) (a * e * T) 0 = a * e * load.mech t (fun _ => w) T 0)
    {r0 b0 r1 b1 : FConv ℝ → FConv ℝ → Prop} {m0 m1 : ℕ → ℕ → Prop} (h0 : Twin finitePower r0 b0 m0 fun (w : Fin 1 → ℝ) k => a * w k)
    (h1 : Twin finitePower r1 b1 m1 fun (w : Fin 1 → ℝ) k => e * w k) (d0 : ∀ c c', r0 c c' → c.dim = 1 ∧ c'.dim = 1)
    (d1 : ∀ c c', r1 c c' → c.dim = 1 ∧ c'.dim = 1) {c0 c1 : FConv ℝ} (f0 : r0 c0 c0) (f1 : r1 c1 c1) :
    ExtExSigns mp a e other c0 c1 m0 m1 := by
  intro P src load limits hs hlen
  refine sameCourse_of ⟨hs, multi_twin h0 h1 d0 d1, ?_, dcY_two_back, extEx_rhs mp he (hl load)⟩ ⟨_, _, _, _, rfl, rfl, f0, f1⟩ (signsTwo_eq a e)
  rw [funext (signsTwo_eq a e)]
  exact extEx_frames mp a e hlen

theorem extEx_signs_cont (mp : DcParams ℝ) {a e : ℝ} (he : e * e = 1) {other : AnyLoad → AnyLoad}
    (hl : ∀ load t w T, (other load).mech t (fun _ => a * e * w) (a * e * T) 0 = a * e * load.mech t (fun _ => w) T 0)
    {r0 b0 r1 b1 : CConv ℝ → CConv ℝ → Prop} {m0 m1 : List ℝ → List ℝ → Prop} (h0 : Twin contPower r0 b0 m0 fun (w : Fin 1 → ℝ) k => a * w k)
    (h1 : Twin contPower r1 b1 m1 fun (w : Fin 1 → ℝ) k => e * w k) (d0 : ∀ c c', r0 c c' → c.dim = 1 ∧ c'.dim = 1)
    (d1 : ∀ c c', r1 c c' → c.dim = 1 ∧ c'.dim = 1) {c0 c1 : CConv ℝ} (f0 : r0 c0 c0) (f1 : r1 c1 c1) :
    ExtExSignsCont mp a e other c0 c1 m0 m1 := by
  intro P src load limits hs hlen
  refine sameCourse_of ⟨hs, cmulti_twin h0 h1 d0 d1, ?_, dcY_two_back, extEx_rhs mp he (hl load)⟩ ⟨_, _, _, _, rfl, rfl, f0, f1⟩ (signsTwo_eq a e)
  rw [funext (signsTwo_eq a e)]
  exact extEx_frames mp a e hlen

theorem sides_dim (good : TwoQC ℝ → Prop) (c c' : FConv ℝ) (h : SidesSwapped good c c') : c.dim = 1 ∧ c'.dim = 1 := by
  obtain ⟨b, b', rfl, rfl, -⟩ := h
  exact ⟨rfl, rfl⟩

theorem csides_dim (c c' : CConv ℝ) (h : CSides c c') : c.dim = 1 ∧ c'.dim = 1 := by
  obtain ⟨_, _, _, _, _, _, _, _, rfl, rfl⟩ := h
  exact ⟨rfl, rfl⟩

theorem keep_dim (N : ℕ) (c c' : FConv ℝ) (h : c = c' ∧ c.nActions = N ∧ AllLegs LegFine c) : c.dim = 1 ∧ c'.dim = 1 := by
  obtain ⟨rfl, -, h⟩ := h
  cases c with
  | b6 b => exact h.elim
  | _ => exact ⟨rfl, rfl⟩

/-- C136 for the externally excited motor: it turns in the opposite direction if the voltage of the armature is reversed, or that of the
excitation, and in the same direction if both are.  The converter of the other circuit may be any with one voltage. -/
theorem c136_extEx (mp : DcParams ℝ) (T I T' I' : ℝ) (c : FConv ℝ) (hc : AllLegs LegFine c) (d : CConv ℝ) (hd : d.dim = 1) :
    (ExtExSigns mp (-1) 1 AnyLoad.opposite (.four (FourQC.new T I)) c SwitchesOpposite (fun a a' => a = a' ∧ a < c.nActions) ∧
      ExtExSigns mp 1 (-1) AnyLoad.opposite c (.four (FourQC.new T I)) (fun a a' => a = a' ∧ a < c.nActions) SwitchesOpposite ∧
      ExtExSigns mp (-1) (-1) id (.four (FourQC.new T I)) (.four (FourQC.new T' I')) SwitchesOpposite SwitchesOpposite) ∧
    ExtExSignsCont mp (-1) 1 AnyLoad.opposite (.four (CFour.new T I)) d (fun a a' => ∃ x, a = [x] ∧ a' = [-x])
      (fun a a' => a = a' ∧ a.length = 1) ∧
    ExtExSignsCont mp 1 (-1) AnyLoad.opposite d (.four (CFour.new T I)) (fun a a' => a = a' ∧ a.length = 1)
      (fun a a' => ∃ x, a = [x] ∧ a' = [-x]) ∧
    ExtExSignsCont mp (-1) (-1) id (.four (CFour.new T I)) (.four (CFour.new T' I')) (fun a a' => ∃ x, a = [x] ∧ a' = [-x])
      (fun a a' => ∃ x, a = [x] ∧ a' = [-x]) := by
  have n1 : (-1 * 1 : ℝ) = -1 := by norm_num
  have n2 : (1 * -1 : ℝ) = -1 := by norm_num
  have n3 : (-1 * -1 : ℝ) = 1 := by norm_num
  have hf := four_twin
  have hcf := cfour_twin
  rw [neg_signs] at hf hcf
  have hk := keep_twin c.nActions
  have hck := ckeep_twin
  rw [keep_signs] at hk hck
  have kd : ∀ d d' : CConv ℝ, d = d' ∧ d.dim = 1 → d.dim = 1 ∧ d'.dim = 1 := by
    rintro d _ ⟨rfl, h⟩
    exact ⟨h, h⟩
  refine ⟨⟨extEx_signs mp (by norm_num) (by rw [n1]; exact mech_opposite) hf hk (sides_dim _) (keep_dim _) (fresh_four T I) ⟨rfl, rfl, hc⟩,
    extEx_signs mp (by norm_num) (by rw [n2]; exact mech_opposite) hk hf (keep_dim _) (sides_dim _) ⟨rfl, rfl, hc⟩ (fresh_four T I),
    extEx_signs mp (by norm_num) (by rw [n3]; exact mech_same) hf hf (sides_dim _) (sides_dim _) (fresh_four T I) (fresh_four T' I')⟩,
    extEx_signs_cont mp (by norm_num) (by rw [n1]; exact mech_opposite) hcf hck csides_dim kd (fresh_cfour T I) ⟨rfl, hd⟩,
    extEx_signs_cont mp (by norm_num) (by rw [n2]; exact mech_opposite) hck hcf kd csides_dim ⟨rfl, hd⟩ (fresh_cfour T I),
    extEx_signs_cont mp (by norm_num) (by rw [n3]; exact mech_same) hcf hcf csides_dim csides_dim (fresh_cfour T I) (fresh_cfour T' I')⟩

/-! ### Cases -/

example : SwitchesMoved swapBC 2 1 ∧ SwitchesMoved swapBC 6 5 ∧ ¬ SwitchesMoved swapBC 2 2 ∧ DutiesMoved swapBC [1, 0, -1] [1, -1, 0] ∧
    SwitchesOpposite 1 2 ∧ ¬ SwitchesOpposite 1 1 := by
  refine ⟨⟨by norm_num, by norm_num, by decide⟩, ⟨by norm_num, by norm_num, by decide⟩, fun h => absurd (h.2.2 1) (by decide),
    ⟨![1, 0, -1], by simp, by simp [swapBC, List.ofFn_succ]⟩, Or.inr (Or.inl ⟨rfl, rfl⟩), by simp [SwitchesOpposite]⟩

theorem limits_mirror : EvenLimits syncStates syncStates [100, 5, 20, 20, 20, 20, 20, 48, 48, 48, 48, 48, 3, 48] swapped := by
  refine ⟨rfl, ?_, fun _ => by simp [syncStates_eq, readState]⟩
  intro n hn
  simp only [syncStates_eq, List.mem_cons, List.not_mem_nil, or_false] at hn
  rcases hn with rfl | rfl | rfl | rfl | rfl | rfl | rfl | rfl | rfl | rfl | rfl | rfl | rfl | rfl <;>
    simp [syncStates_eq, readState, swapped]

/-- two steps of a PMSM, and the same with two phases interchanged, turning in the opposite direction -/
example (mp : SyncParams ℝ) (st : St ℝ (Euler ℝ (Fin (1 + 3) → ℝ)) (FConv ℝ) Unit) (hst : st.conv = .b6 (B6.new 1 (1 / 10))) :
    List.Forall₂ (Echo (Image syncStates syncStates [100, 5, 20, 20, 20, 20, 20, 48, 48, 48, 48, 48, 3, 48] swapped oppositeSign 0))
      (answers (eulerParts finitePower (idealSource 48) (.poly 0 1 2 3 1 []) (pmsmTorque mp) (syncOde (pmsmConstants mp)) none syncY ofSyncY)
        (asIs (syncFrame (syncTq (pmsmTorque mp)) false)) (syncReset (syncTq (pmsmTorque mp))) 1
        [100, 5, 20, 20, 20, 20, 20, 48, 48, 48, 48, 48, 3, 48] st [.inl (syncY ![10, 1, 2, 1]), .inr 4, .inr 2])
      (answers (eulerParts finitePower (idealSource 48) (AnyLoad.opposite (.poly 0 1 2 3 1 [])) (pmsmTorque mp) (syncOde (pmsmConstants mp)) none
        syncY ofSyncY) (asIs (syncFrame (syncTq (pmsmTorque mp)) false)) (syncReset (syncTq (pmsmTorque mp))) 1
        [100, 5, 20, 20, 20, 20, 20, 48, 48, 48, 48, 48, 3, 48] st [.inl (syncY ![-10, 1, -2, -1]), .inr 4, .inr 1]) :=
  ((c136_sync mp).1 (idealSource 48) (.poly 0 1 2 3 1 []) _ 1 (1 / 10) (ideal_one 48) limits_mirror).1 1 none none st st ![10, 1, 2, 1]
    [.inr 4, .inr 2] [.inr 4, .inr 1] hst hst rfl rfl
    (.cons (.step ⟨by norm_num, by norm_num, by decide⟩) (.cons (.step ⟨by norm_num, by norm_num, by decide⟩) .nil))

/-- two steps of an externally excited motor with opposite armature voltage -/
example (mp : DcParams ℝ) (st : St ℝ (Euler ℝ (Fin (1 + 2) → ℝ)) (List (FConv ℝ)) Unit)
    (hst : st.conv = [.four (FourQC.new 1 (1 / 10)), .one (OneQC.new 1)]) :
    List.Forall₂ (Echo (Image extExStates extExStates [100, 5, 20, 2, 48, 24, 48] id (dcSign (-1 * 1) (-1) 1) 0))
      (answers (eulerParts finiteMulti (idealSource 48) (.poly 0 1 2 3 1 []) (dcTorque mp)
        (fun x (u : List ℝ) w => dcOde mp x (fun i => u.getD i 0) w) none dcY ofDcY)
        (dcFrame id (dcTq (dcTorque mp)) [0, 1] 2 1) (dcResetReport (dcTq (dcTorque mp)) [0, 1]) 1
        [100, 5, 20, 2, 48, 24, 48] st [.inl (dcY (m := 2) ![10, 1, 2]), .inr [1, 1], .inr [3, 0]])
      (answers (eulerParts finiteMulti (idealSource 48) (AnyLoad.opposite (.poly 0 1 2 3 1 [])) (dcTorque mp)
        (fun x (u : List ℝ) w => dcOde mp x (fun i => u.getD i 0) w) none dcY ofDcY)
        (dcFrame id (dcTq (dcTorque mp)) [0, 1] 2 1) (dcResetReport (dcTq (dcTorque mp)) [0, 1]) 1
        [100, 5, 20, 2, 48, 24, 48] st [.inl (dcY (signsTwo (-1) 1 ![10, 1, 2])), .inr [2, 1], .inr [3, 0]]) :=
  ((c136_extEx mp 1 (1 / 10) 1 (1 / 10) (.one (OneQC.new 1)) trivial (.one (COne.new 1)) rfl).1.1 (idealSource 48) (.poly 0 1 2 3 1 [])
    [100, 5, 20, 2, 48, 24, 48] (ideal_one 48) rfl) 1 none none st st ![10, 1, 2] [.inr [1, 1], .inr [3, 0]] [.inr [2, 1], .inr [3, 0]] hst hst rfl rfl
    (.cons (.step ⟨1, 1, 2, 1, rfl, rfl, Or.inr (Or.inl ⟨rfl, rfl⟩), rfl, by decide⟩)
      (.cons (.step ⟨3, 0, 3, 0, rfl, rfl, Or.inr (Or.inr (Or.inr ⟨rfl, rfl⟩)), rfl, by decide⟩) .nil))

end

end GEM.Props
