import Verif.Spec.Watching
import Verif.Props.WrappedRegistry

/-!
# C133: wrappers that add states
-/

set_option linter.unusedSectionVars false

namespace GEM.Props

open GEM GEM.Assembly GEM.Wrap GEM.Motor GEM.Refs GEM.Reward GEM.Utils GEM.Constr GEM.Core

noncomputable section

variable {σ σ' σ'' σ₀ A B α β γ δ : Type}

/-! ## Related calls -/

theorem paired_bind {T : σ → σ' → Prop} {Q : α → β → Prop} {R : γ → δ → Prop} {r : Call σ α} {r' : Call σ' β}
    (h : Paired T Q r r') {f : σ → α → Call σ γ} {f' : σ' → β → Call σ' δ}
    (hf : ∀ s s' a b, T s s' → Q a b → Paired T R (f s a) (f' s' b)) : Paired T R (r.bind f) (r'.bind f') := by
  obtain ⟨s, x⟩ := r
  obtain ⟨s', y⟩ := r'
  obtain ⟨h1, h2⟩ := h
  cases x with
  | error e =>
    cases y with
    | error e' => exact ⟨h1, h2⟩
    | ok b => exact h2.elim
  | ok a =>
    cases y with
    | error e' => exact h2.elim
    | ok b => exact hf s s' a b h1 h2

theorem paired_imp {T T' : σ → σ' → Prop} {Q Q' : α → β → Prop} {r : Call σ α} {r' : Call σ' β} (h : Paired T Q r r')
    (hT : T r.1 r'.1 → T' r.1 r'.1) (hQ : ∀ a b, r.2 = .ok a → r'.2 = .ok b → Q a b → Q' a b) : Paired T' Q' r r' := by
  obtain ⟨s, x⟩ := r
  obtain ⟨s', y⟩ := r'
  obtain ⟨h1, h2⟩ := h
  refine ⟨hT h1, ?_⟩
  cases x <;> cases y <;> first | exact h2 | exact hQ _ _ rfl rfl h2

theorem paired_ok {T : σ → σ' → Prop} {Q : α → β → Prop} {s : σ} {s' : σ'} {a : α} {b : β} (h : T s s') (hQ : Q a b) :
    Paired T Q ((s, .ok a) : Call σ α) ((s', .ok b) : Call σ' β) := ⟨h, hQ⟩

theorem paired_error {T : σ → σ' → Prop} {Q : α → β → Prop} {s : σ} {s' : σ'} {e : Err} (h : T s s') :
    Paired T Q ((s, .error e) : Call σ α) ((s', .error e) : Call σ' β) := ⟨h, rfl⟩

theorem longer_trans {N n k : ℕ} {a b c : List ℝ} (h : Longer N n a b) (h' : Longer (N + n) k b c) : Longer N (n + k) a c := by
  obtain ⟨h1, e, h2, rfl⟩ := h
  obtain ⟨-, e', h3, rfl⟩ := h'
  exact ⟨h1, e ++ e', by simp [h2, h3], by simp⟩

/-! ## Systems -/

/-- A system that does what the inner one does, with related answers. -/
structure Mirrors (p₀ : Plant σ₀ A) (p : Plant σ A) (inner : σ → σ₀) (Q : List ℝ → List ℝ → Prop) : Prop where
  reset : ∀ st, Paired (fun a b => inner b = a) Q (p₀.ps.reset (inner st)) (p.ps.reset st)
  simulate : ∀ st a, Paired (fun a b => inner b = a) Q (p₀.ps.simulate (inner st) a) (p.ps.simulate st a)
  seed : ∀ k st, inner (p.seed k st) = p₀.seed k (inner st)
  steps : ∀ st, p.steps st = p₀.steps (inner st)

theorem paired_trans {f : σ' → σ} {g : σ'' → σ'} {Q : α → β → Prop} {R : β → γ → Prop} {r : Call σ α} {r' : Call σ' β} {r'' : Call σ'' γ}
    (h : Paired (fun a b => f b = a) Q r r') (h' : Paired (fun a b => g b = a) R r' r'') :
    Paired (fun a b => f (g b) = a) (fun a c => ∃ b, Q a b ∧ R b c) r r'' := by
  obtain ⟨s, x⟩ := r
  obtain ⟨s', y⟩ := r'
  obtain ⟨s'', z⟩ := r''
  obtain ⟨h1, h2⟩ := h
  obtain ⟨h3, h4⟩ := h'
  simp only at h1 h3
  subst h3
  refine ⟨h1, ?_⟩
  cases x with
  | error e =>
    cases y with
    | ok b => exact h2.elim
    | error e' =>
      cases z with
      | ok c => exact h4.elim
      | error e'' => exact Eq.trans h2 h4
  | ok a =>
    cases y with
    | error e' => exact h2.elim
    | ok b =>
      cases z with
      | error e'' => exact h4.elim
      | ok c => exact ⟨b, h2, h4⟩

theorem follows_same {p₀ : Plant σ₀ A} {p : Plant σ A} {inner : σ → σ₀} {N n k : ℕ} (h : Mirrors p₀ p inner (Longer N n)) {w : PSys σ A}
    (hr : ∀ st, Paired (fun a b => b = a) (Longer (N + n) k) (p.ps.reset st) (w.reset st))
    (hs : ∀ st a, Paired (fun a b => b = a) (Longer (N + n) k) (p.ps.simulate st a) (w.simulate st a)) :
    Mirrors p₀ (p.same w) inner (Longer N (n + k)) where
  reset st := paired_imp (paired_trans (g := id) (h.reset st) (hr st)) id fun _ _ _ _ ⟨_, h1, h2⟩ => longer_trans h1 h2
  simulate st a := paired_imp (paired_trans (g := id) (h.simulate st a) (hs st a)) id fun _ _ _ _ ⟨_, h1, h2⟩ => longer_trans h1 h2
  seed := h.seed
  steps := h.steps

theorem follows_under {ε : Type} {p₀ : Plant σ₀ A} {p : Plant σ A} {inner : σ → σ₀} {N n k : ℕ} (h : Mirrors p₀ p inner (Longer N n))
    {w : PSys (σ × ε) A}
    (hr : ∀ st, Paired (fun a b => b.1 = a) (Longer (N + n) k) (p.ps.reset st.1) (w.reset st))
    (hs : ∀ st a, Paired (fun a b => b.1 = a) (Longer (N + n) k) (p.ps.simulate st.1 a) (w.simulate st a)) :
    Mirrors p₀ (p.under w) (fun st => inner st.1) (Longer N (n + k)) where
  reset st := paired_imp (paired_trans (g := Prod.fst) (h.reset st.1) (hr st)) id fun _ _ _ _ ⟨_, h1, h2⟩ => longer_trans h1 h2
  simulate st a := paired_imp (paired_trans (g := Prod.fst) (h.simulate st.1 a) (hs st a)) id fun _ _ _ _ ⟨_, h1, h2⟩ => longer_trans h1 h2
  seed k st := h.seed k st.1
  steps st := h.steps st.1

/-- A wrapper that looks at the answer and appends to it. -/
theorem paired_post {N k : ℕ} {r : Call σ (List ℝ)} {f : List ℝ → Except Err (List ℝ)} (hN : ∀ v, r.2 = .ok v → v.length = N)
    (hf : ∀ v : List ℝ, v.length = N → ∃ e : List ℝ, e.length = k ∧ f v = .ok (v ++ e)) :
    Paired (fun a b => b = a) (Longer N k) r (post r f) := by
  obtain ⟨s, x⟩ := r
  cases x with
  | error e => exact ⟨rfl, rfl⟩
  | ok v =>
    obtain ⟨e, h1, h2⟩ := hf v (hN v rfl)
    refine ⟨rfl, ?_⟩
    simp only [post, Except.bind, h2]
    exact ⟨hN v rfl, e, h1, rfl⟩

theorem watching_wrapping {p₀ : Plant σ₀ A} {p : Plant σ A} {inner : σ → σ₀} {ext : List (String × ℝ × ℝ)} (h : Watching p₀ p inner ext)
    (space : A → Prop) : Wrapping p₀ space p space inner ext false := by
  induction h with
  | none => exact .none
  | cosSin p inner ext angle w _ hw ih => exact .cosSin p space inner ext false angle w ih hw
  | sum p inner ext cur mode w _ hw ih => exact .sum p space inner ext false cur mode w ih hw
  | flux p inner ext m na nb nc isd w _ hw h1 h2 ih => exact .flux p space inner ext false m na nb nc isd w ih hw h1 h2

theorem watching_announces {p₀ : Plant σ₀ A} {p : Plant σ A} {inner : σ → σ₀} {ext : List (String × ℝ × ℝ)} (h : Watching p₀ p inner ext)
    (c : Consistent p₀.ps) : Consistent p.ps ∧ Appends p₀.ps p.ps ext := by
  obtain ⟨h1, h2, -, -⟩ := c124_systems (idle := fun _ => False) (running := fun _ => False) c
    ⟨fun _ h => h.elim, fun _ _ h => h.elim, fun _ h => h, fun _ _ h => h⟩ (watching_wrapping h fun _ => True)
  exact ⟨h1, h2⟩

theorem watching_follows {p₀ : Plant σ₀ A} {p : Plant σ A} {inner : σ → σ₀} {ext : List (String × ℝ × ℝ)} (h : Watching p₀ p inner ext)
    (c : Consistent p₀.ps) : Mirrors p₀ p inner (Longer p₀.ps.names.length ext.length) := by
  induction h with
  | none =>
    refine ⟨fun st => ⟨rfl, ?_⟩, fun st a => ⟨rfl, ?_⟩, fun _ _ => rfl, fun _ => rfl⟩
    · cases h : (p₀.ps.reset st).2 with
      | error e => simp [h]
      | ok v => simp only [id, h]; exact ⟨c.reset st v h, [], rfl, by simp⟩
    · cases h : (p₀.ps.simulate st a).2 with
      | error e => simp [h]
      | ok v => simp only [id, h]; exact ⟨c.simulate st a v h, [], rfl, by simp⟩
  | cosSin p inner ext angle w hp hw ih =>
    obtain ⟨c', a⟩ := watching_announces hp c
    obtain ⟨idx, h1, rfl⟩ := map_ok'.1 hw
    have hi := c'.lt (position_ok.1 h1)
    have hN : p.ps.names.length = p₀.ps.names.length + ext.length := by rw [a.names]; simp
    rw [List.length_append]
    refine follows_same ih (fun st => paired_post (fun v hv => hN ▸ c'.reset st v hv) fun v hv => ?_)
      (fun st a => paired_post (fun v hv => hN ▸ c'.simulate st a v hv) fun v hv => ?_)
    all_goals
      have hx : idx < v.length := by rw [hv, ← hN]; exact hi
      exact ⟨[Real.cos (v[idx] * Real.pi), Real.sin (v[idx] * Real.pi)], rfl, by simp [cosSinOf, getE_lt hx, Except.map, del]⟩
  | sum p inner ext cur mode w hp hw ih =>
    obtain ⟨c', a⟩ := watching_announces hp c
    obtain ⟨idx, limit, nominal, h5, rfl⟩ := sum_positions hw
    have hlt := positions_lt c' h5
    have hN : p.ps.names.length = p₀.ps.names.length + ext.length := by rw [a.names]; simp
    rw [List.length_append]
    refine follows_same ih (fun st => paired_post (fun v hv => hN ▸ c'.reset st v hv) fun v hv => ?_)
      (fun st a => paired_post (fun v hv => hN ▸ c'.simulate st a v hv) fun v hv => ?_)
    all_goals
      obtain ⟨cs, e⟩ := mapM_getE_total (idx := idx) (v := v) (by rw [hv, ← hN]; exact hlt)
      exact ⟨[cs.sum], rfl, by simp only [withSum, e, Except.map]⟩
  | flux p inner ext m na nb nc isd w hp hw hl h0 ih =>
    obtain ⟨c', a⟩ := watching_announces hp c
    obtain ⟨isd', ia, ib, ic, om, -, p1, p2, p3, p4, rfl⟩ := flux_positions hw
    have hN : p.ps.names.length = p₀.ps.names.length + ext.length := by rw [a.names]; simp
    rw [List.length_append]
    refine follows_under ih (fun st => ?_) (fun st a => ?_)
    · refine ⟨rfl, ?_⟩
      cases h : (p.ps.reset st.1).2 with
      | error e => simp [fluxAt, h, Except.map]
      | ok v =>
        simp only [fluxAt, h, Except.map]
        exact ⟨hN ▸ c'.reset st.1 v h, _, rfl, rfl⟩
    · cases h : (p.ps.simulate st.1 a).2 with
      | error e =>
        simp only [fluxAt, h]
        exact ⟨rfl, by rw [h]⟩
      | ok v =>
        have hv := c'.simulate st.1 a v h
        have hlen : v.length = p.ps.limits.length := hv.trans c'.limits.symm
        have hz : (List.zipWith (· * ·) v p.ps.limits).length = p.ps.names.length := by simp [hv, c'.limits]
        have l : ∀ {k : String} {i : ℕ}, p.ps.pos k = some i → i < (List.zipWith (· * ·) v p.ps.limits).length := by
          intro k i hi
          rw [hz]
          exact c'.lt hi
        have hback : List.zipWith (· / ·) (List.zipWith (· * ·) v p.ps.limits) p.ps.limits = v := by
          refine List.ext_getElem (by simp [hlen]) fun i h1 h2 => ?_
          have h3 : i < p.ps.limits.length := hlen ▸ h2
          simp only [List.getElem_zipWith]
          exact mul_div_cancel_right₀ _ (h0 _ (List.getElem_mem h3))
        simp only [fluxAt, h, fluxPost, mulE_ok hlen, getE_lt (l p1), getE_lt (l p2), getE_lt (l p3), getE_lt (l p4)]
        refine ⟨rfl, ?_⟩
        rw [h, divE, if_pos (by simp [hlen]), List.zipWith_append (by simp [hlen]), hback]
        exact ⟨hN ▸ hv, _, by simp, rfl⟩

/-! ## Reference generators -/

theorem paired_refl (r : Call σ α) : Paired (· = ·) (· = ·) r r := by
  obtain ⟨s, x⟩ := r
  cases x <;> exact ⟨rfl, rfl⟩

theorem place_padded (m : List Bool) (n : ℕ) (v : ℝ) : Padded m.length n (place m v) (place (m ++ List.replicate n false) v) := by
  simp [Padded, place]

theorem pick_padded {m : List Bool} {n : ℕ} {a a' : List ℝ} (h : Padded m.length n a a') :
    pick (m ++ List.replicate n false) a' = pick m a := by
  obtain ⟨h1, rfl⟩ := h
  induction m generalizing a with
  | nil =>
    rw [List.length_nil, List.length_eq_zero_iff] at h1
    subst h1
    simp only [List.nil_append]
    induction n with
    | zero => rfl
    | succ n ih => simpa [List.replicate_succ, pick] using ih
  | cons b m ih =>
    cases a with
    | nil => simp at h1
    | cons x a =>
      cases b with
      | true => rfl
      | false => exact ih (by simpa using h1)

theorem paired_baseReset {τ τ' : Type} {T : τ → τ' → Prop} {N n : ℕ} {f g : τ → Call τ (List ℝ)} {f' g' : τ' → Call τ' (List ℝ)}
    (hf : ∀ t t', T t t' → Paired T (Padded N n) (f t) (f' t')) (hg : ∀ t t', T t t' → Paired T (· = ·) (g t) (g' t')) {t : τ} {t' : τ'}
    (ht : T t t') : Paired T (fun a b => Padded N n a.1 b.1 ∧ b.2 = a.2) (baseReset f g t) (baseReset f' g' t') :=
  paired_bind (hf t t' ht) fun t t' _ _ ht hr => paired_bind (hg t t' ht) fun _ _ _ _ ht ho => paired_ok ht ⟨hr, ho.symm⟩

/-- C133 (generators): a sub-episoded generator -/
theorem enlarges_sub {H : Type} (c : SubCfg H ℝ) (n : ℕ) :
    Enlarges c.mask.length n (· = ·) (subGen c) (subGen { c with mask := c.mask ++ List.replicate n false }) := by
  have h1 : ∀ t t' : SubSt H ℝ, t = t' →
      Paired (· = ·) (Padded c.mask.length n) (subRef c t) (subRef { c with mask := c.mask ++ List.replicate n false } t') := by
    rintro t _ rfl
    exact paired_ok rfl (place_padded _ _ _)
  have h2 : ∀ t t' : SubSt H ℝ, t = t' →
      Paired (· = ·) (· = ·) (subObs c t) (subObs { c with mask := c.mask ++ List.replicate n false } t') := by
    rintro t _ rfl
    exact paired_refl (subObs c t)
  have h3 : ∀ (t : SubSt H ℝ) (r r' : List ℝ), Padded c.mask.length n r r' →
      Paired (· = ·) (fun a b => Padded c.mask.length n a.1 b.1 ∧ b.2 = a.2) (subResetWith c t (some r))
        (subResetWith { c with mask := c.mask ++ List.replicate n false } t (some r')) := by
    intro t r r' hr
    simp only [subResetWith, pick_padded hr]
    cases pick c.mask r with
    | error e => exact paired_error rfl
    | ok v => exact paired_baseReset h1 h2 rfl
  refine ⟨rfl, rfl, rfl, rfl, rfl, ?_, ?_, fun t t' _ _ ht _ => h1 t t' ht, fun t t' _ _ ht _ => h2 t t' ht⟩
  · rintro t _ s s' rfl -
    simp only [subGen, subReset]
    cases hi : c.initial with
    | none => exact paired_baseReset h1 h2 rfl
    | some draw => exact h3 _ _ _ (place_padded _ _ _)
  · rintro t _ s s' r r' rfl - hr
    simp only [subGen, subReset]
    exact h3 t r r' hr

/-- C133 (generators): a constant -/
theorem enlarges_const (name : String) (m : List Bool) (n : ℕ) (v : ℝ) :
    Enlarges m.length n (· = ·) (constGen name m v) (constGen name (m ++ List.replicate n false) v) := by
  have h : ∀ t t' : Unit, t = t' → Paired (· = ·) (Padded m.length n) ((t, .ok (place m v)) : Call Unit (List ℝ))
      ((t', .ok (place (m ++ List.replicate n false) v)) : Call Unit (List ℝ)) := fun t t' _ => paired_ok rfl (place_padded _ _ _)
  have h' : ∀ t t' : Unit, t = t' → Paired (· = ·) (· = ·) ((t, .ok [v]) : Call Unit (List ℝ)) ((t', .ok [v]) : Call Unit (List ℝ)) :=
    fun t t' _ => paired_ok rfl rfl
  exact ⟨rfl, rfl, rfl, rfl, rfl, fun t t' _ _ ht _ => paired_baseReset h h' ht, fun t t' _ _ _ _ ht _ _ => paired_baseReset h h' ht,
    fun t t' _ _ ht _ => h t t' ht, fun t t' _ _ ht _ => h' t t' ht⟩

/-- C133 (generators): no references -/
theorem enlarges_zero (N n : ℕ) : Enlarges N n (· = ·) (zeroGen N : RefGen Unit ℝ) (zeroGen (N + n)) := by
  have h : ∀ t t' : Unit, t = t' → Paired (· = ·) (Padded N n) ((t, .ok (List.replicate N 0)) : Call Unit (List ℝ))
      ((t', .ok (List.replicate (N + n) 0)) : Call Unit (List ℝ)) :=
    fun t t' _ => paired_ok rfl ⟨by simp, by rw [List.replicate_append_replicate]⟩
  have h' : ∀ t t' : Unit, t = t' → Paired (· = ·) (· = ·) ((t, .ok []) : Call Unit (List ℝ)) ((t', .ok []) : Call Unit (List ℝ)) :=
    fun t t' _ => paired_ok rfl rfl
  exact ⟨rfl, rfl, rfl, by simp [zeroGen], by simp [zeroGen, List.replicate_append_replicate],
    fun t t' _ _ ht _ => paired_baseReset h h' ht, fun t t' _ _ _ _ ht _ _ => paired_baseReset h h' ht,
    fun t t' _ _ ht _ => h t t' ht, fun t t' _ _ ht _ => h' t t' ht⟩

section several

variable {τ τ' : Type} {T : τ → τ' → Prop} {N n : ℕ} {gs : List (RefGen τ ℝ)} {gs' : List (RefGen τ' ℝ)}

theorem paired_each {Q : α → β → Prop} {m : RefGen τ ℝ → τ → Call τ α} {m' : RefGen τ' ℝ → τ' → Call τ' β}
    (hg : List.Forall₂ (fun g g' => ∀ t t', T t t' → Paired T Q (m g t) (m' g' t')) gs gs') {ss : List τ} {ss' : List τ'}
    (hs : List.Forall₂ T ss ss') : Paired (List.Forall₂ T) (List.Forall₂ Q) (each m gs ss) (each m' gs' ss') := by
  induction hg generalizing ss ss' with
  | nil =>
    cases hs with
    | nil => exact paired_ok .nil .nil
    | cons h hs => exact paired_ok (.cons h hs) .nil
  | @cons g g' gs gs' h hg ih =>
    cases hs with
    | nil => exact paired_ok .nil .nil
    | @cons s s' ss ss' h1 hs =>
      obtain ⟨a1, a2⟩ := h s s' h1
      obtain ⟨b1, b2⟩ := ih hs
      unfold each
      cases e : (m g s).2 with
      | error x =>
        cases e' : (m' g' s').2 with
        | error y =>
          rw [e, e'] at a2
          subst a2
          simp only [e, e']
          exact paired_error (.cons a1 hs)
        | ok b => rw [e, e'] at a2; exact a2.elim
      | ok a =>
        cases e' : (m' g' s').2 with
        | error y => rw [e, e'] at a2; exact a2.elim
        | ok b =>
          rw [e, e'] at a2
          simp only [e, e']
          refine ⟨.cons a1 b1, ?_⟩
          revert b2
          cases (each m gs ss).2 <;> cases (each m' gs' ss').2 <;> intro b2
          · exact b2
          · exact b2.elim
          · exact b2.elim
          · exact .cons a2 b2

theorem padded_add {a a' b b' : List ℝ} (ha : Padded N n a a') (hb : Padded N n b b') :
    ∃ c c', addArr a b = .ok c ∧ addArr a' b' = .ok c' ∧ Padded N n c c' := by
  obtain ⟨h1, rfl⟩ := ha
  obtain ⟨h2, rfl⟩ := hb
  refine ⟨_, _, by rw [addArr, if_pos (by rw [h1, h2])], by rw [addArr, if_pos (by simp [h1, h2])], by simp [h1, h2], ?_⟩
  rw [List.zipWith_append (by rw [h1, h2])]
  simp

theorem padded_fold {l l' : List (List ℝ)} (h : List.Forall₂ (Padded N n) l l') {a a' : List ℝ} (ha : Padded N n a a') :
    ∃ c c', l.foldlM addArr a = .ok c ∧ l'.foldlM addArr a' = .ok c' ∧ Padded N n c c' := by
  induction h generalizing a a' with
  | nil => exact ⟨a, a', rfl, rfl, ha⟩
  | cons h _ ih =>
    obtain ⟨b, b', h1, h2, h3⟩ := padded_add ha h
    obtain ⟨c, c', h4, h5, h6⟩ := ih h3
    exact ⟨c, c', by simp [List.foldlM_cons, h1, bind, Except.bind, h4], by simp [List.foldlM_cons, h2, bind, Except.bind, h5], h6⟩

theorem padded_sum {l l' : List (List ℝ)} (h : List.Forall₂ (Padded N n) l l') (h0 : l ≠ []) :
    ∃ c c', sumArrs l = .ok c ∧ sumArrs l' = .ok c' ∧ Padded N n c c' := by
  cases h with
  | nil => exact absurd rfl h0
  | cons h hs => exact padded_fold hs h

theorem forall₂_snd {l : List (List ℝ × List ℝ)} {l' : List (List ℝ × List ℝ)}
    (h : List.Forall₂ (fun a b : List ℝ × List ℝ => Padded N n a.1 b.1 ∧ b.2 = a.2) l l') :
    List.Forall₂ (Padded N n) (l.map Prod.fst) (l'.map Prod.fst) ∧ l'.map Prod.snd = l.map Prod.snd := by
  induction h with
  | nil => exact ⟨.nil, rfl⟩
  | cons h _ ih => exact ⟨.cons h.1 ih.1, by simp [h.2, ih.2]⟩

theorem paired_map {T : List τ → List τ' → Prop} {Q : α → β → Prop} {R : γ → δ → Prop} {r : Call (List τ) α} {r' : Call (List τ') β}
    (h : Paired T Q r r') {f : α → Except Err γ} {f' : β → Except Err δ}
    (hf : ∀ a b, r.2 = .ok a → Q a b → (∃ c d, f a = .ok c ∧ f' b = .ok d ∧ R c d) ∨ ∃ e, f a = .error e ∧ f' b = .error e) :
    Paired T R (r.1, r.2.bind f) (r'.1, r'.2.bind f') := by
  obtain ⟨s, x⟩ := r
  obtain ⟨s', y⟩ := r'
  obtain ⟨h1, h2⟩ := h
  refine ⟨h1, ?_⟩
  cases x with
  | error e =>
    cases y with
    | error e' => exact h2
    | ok b => exact h2.elim
  | ok a =>
    cases y with
    | error e' => exact h2.elim
    | ok b =>
      simp only [Except.bind]
      rcases hf a b rfl h2 with ⟨c, d, e1, e2, h⟩ | ⟨e, e1, e2⟩
      · rw [e1, e2]
        exact h
      · rw [e1, e2]

theorem countTrue_padded (h : List.Forall₂ (Enlarges N n T) gs gs') (i : ℕ) :
    countTrue (gs'.map (·.referenced)) i = if i < N then countTrue (gs.map (·.referenced)) i else 0 := by
  induction h with
  | nil => simp [countTrue]
  | @cons g g' gs gs' h _ ih =>
    have e : g'.referenced.getD i false = if i < N then g.referenced.getD i false else false := by
      rw [h.referenced]
      simp only [List.getD_eq_getElem?_getD]
      split_ifs with hi
      · rw [List.getElem?_append_left (by rw [h.width]; exact hi)]
      · rw [List.getElem?_append_right (by rw [h.width]; omega), List.getElem?_replicate]
        split_ifs <;> rfl
    simp only [countTrue, List.map_cons, List.countP_cons] at ih ⊢
    rw [ih, e]
    split_ifs <;> simp_all

theorem forall₂_flatMap {γ δ ε : Type} {R : γ → δ → Prop} {l : List γ} {l' : List δ} (h : List.Forall₂ R l l') {f : γ → List ε} {f' : δ → List ε}
    (hf : ∀ a b, R a b → f' b = f a) : l'.flatMap f' = l.flatMap f := by
  induction h with
  | nil => rfl
  | cons h _ ih => simp [hf _ _ h, ih]

theorem forall₂_map_eq {γ δ ε : Type} {R : γ → δ → Prop} {l : List γ} {l' : List δ} (h : List.Forall₂ R l l') {f : γ → ε} {f' : δ → ε}
    (hf : ∀ a b, R a b → f' b = f a) : l'.map f' = l.map f := by
  induction h with
  | nil => rfl
  | cons h _ ih => simp [hf _ _ h, ih]

/-- C133 (generators): several generators -/
theorem enlarges_multi (h : List.Forall₂ (Enlarges N n T) gs gs') {M : RefGen (List τ) ℝ} (hM : multiGen N gs = .ok M) :
    ∃ M', multiGen (N + n) gs' = .ok M' ∧ Enlarges N n (List.Forall₂ T) M M' := by
  obtain ⟨hne, hc, rfl⟩ := multiGen_ok hM
  have hne' : gs' ≠ [] := by
    rintro rfl
    cases h
    exact hne rfl
  have hok : (List.range (N + n)).all (fun i => decide (countTrue (gs'.map (·.referenced)) i < 2)) = true := by
    rw [List.all_eq_true]
    intro i _
    rw [countTrue_padded h]
    split_ifs with h1
    · simpa using hc i h1
    · rfl
  have ok : multiGen (N + n) gs' = .ok {
      names := .list (gs'.flatMap (fun g => g.names.iter))
      referenced := (List.range (N + n)).map (fun i => decide (0 < countTrue (gs'.map (·.referenced)) i))
      low := gs'.flatMap (·.low)
      high := gs'.flatMap (·.high)
      reset := multiReset (N + n) gs'
      getRef := multiRef gs'
      getObs := multiObs gs' } := by
    simp only [multiGen, multiMask, if_neg hne', hok, if_true, Except.map]
  refine ⟨_, ok, ?_⟩
  have hr : ∀ t t' s s' init init', List.Forall₂ T t t' → Longer N n s s' →
      (init = none ∧ init' = none ∨ ∃ r r', init = some r ∧ init' = some r' ∧ Padded N n r r') →
      Paired (List.Forall₂ T) (fun a b => Padded N n a.1 b.1 ∧ b.2 = a.2) (multiReset N gs t s init) (multiReset (N + n) gs' t' s' init') := by
    intro t t' s s' init init' ht hs hi
    have := paired_each (Q := fun a b : List ℝ × List ℝ => Padded N n a.1 b.1 ∧ b.2 = a.2) (m := fun g t => g.reset t s init)
      (m' := fun g t => g.reset t s' init') (h.imp fun g g' hg t t' ht => by
        rcases hi with ⟨rfl, rfl⟩ | ⟨r, r', rfl, rfl, hr⟩
        · exact hg.reset t t' s s' ht hs
        · exact hg.again t t' s s' r r' ht hs hr) ht
    refine paired_map this fun l l' _ hl => .inl ?_
    obtain ⟨h1, h2⟩ := forall₂_snd hl
    obtain ⟨c, c', h3, h4, h5⟩ := padded_fold h1 (a := List.replicate N 0) (a' := List.replicate (N + n) 0)
      ⟨by simp, by rw [List.replicate_append_replicate]⟩
    exact ⟨_, _, by rw [h3]; rfl, by rw [h4]; rfl, h5, by rw [h2]⟩
  refine ⟨?_, ?_, ?_, by simp, ?_, fun t t' s s' ht hs => hr t t' s s' _ _ ht hs (.inl ⟨rfl, rfl⟩),
    fun t t' s s' r r' ht hs hp => hr t t' s s' _ _ ht hs (.inr ⟨r, r', rfl, rfl, hp⟩), ?_, ?_⟩
  · exact congrArg _ (forall₂_flatMap h fun g g' hg => by rw [hg.names])
  · exact forall₂_flatMap h fun g g' hg => hg.low
  · exact forall₂_flatMap h fun g g' hg => hg.high
  · dsimp only
    rw [List.range_add, List.map_append]
    congr 1
    · refine List.map_congr_left fun i hi => ?_
      rw [countTrue_padded h, if_pos (List.mem_range.1 hi)]
    · rw [List.map_map]
      refine List.eq_replicate_iff.2 ⟨by simp, fun b hb => ?_⟩
      obtain ⟨i, -, rfl⟩ := List.mem_map.1 hb
      simp [countTrue_padded h]
  · intro t t' s s' ht hs
    have := paired_each (Q := Padded N n) (m := fun g t => g.getRef t s) (m' := fun g t => g.getRef t s')
      (h.imp fun g g' hg t t' ht => hg.getRef t t' s s' ht hs) ht
    refine paired_map this fun l l' _ hl => ?_
    by_cases h0 : l = []
    · subst h0
      cases hl
      exact .inr ⟨_, rfl, rfl⟩
    · exact .inl (padded_sum hl h0)
  · intro t t' s s' ht hs
    have := paired_each (Q := (· = ·)) (m := fun g t => g.getObs t s) (m' := fun g t => g.getObs t s')
      (h.imp fun g g' hg t t' ht => hg.getObs t t' s s' ht hs) ht
    refine paired_map this fun l l' _ hl => ?_
    rw [List.forall₂_eq_eq_eq] at hl
    subst hl
    by_cases h0 : l = []
    · exact .inr ⟨_, by simp [h0]; rfl, by simp [h0]⟩
    · exact .inl ⟨l.flatten, l.flatten, by simp [h0], by simp [h0], rfl⟩

/-- Related attributes of switched generators. -/
def SwT {G : Type} (N n : ℕ) (T : τ → τ' → Prop) (st : SwSt G τ ℝ) (st' : SwSt G τ' ℝ) : Prop :=
  List.Forall₂ T st.subs st'.subs ∧
    (st.reference = none ∧ st'.reference = none ∨ ∃ r r', st.reference = some r ∧ st'.reference = some r' ∧ Padded N n r r') ∧
    st'.k = st.k ∧ st'.len = st.len ∧ st'.cur = st.cur ∧ st'.gen = st.gen ∧ st'.spawned = st.spawned

theorem forall₂_set {γ δ : Type} {R : γ → δ → Prop} {l : List γ} {l' : List δ} (h : List.Forall₂ R l l') (i : ℕ) {a : γ} {b : δ} (hab : R a b) :
    List.Forall₂ R (l.set i a) (l'.set i b) := by
  induction h generalizing i with
  | nil => exact .nil
  | cons h hs ih =>
    cases i with
    | zero => exact .cons hab hs
    | succ i => exact .cons h (ih i)

theorem forall₂_get {γ δ : Type} {R : γ → δ → Prop} {l : List γ} {l' : List δ} (h : List.Forall₂ R l l') (i : ℕ) :
    l[i]? = none ∧ l'[i]? = none ∨ ∃ a b, l[i]? = some a ∧ l'[i]? = some b ∧ R a b := by
  induction h generalizing i with
  | nil => exact .inl ⟨rfl, rfl⟩
  | @cons a b _ _ h hs ih =>
    cases i with
    | zero => exact .inr ⟨a, b, rfl, rfl, h⟩
    | succ i => simpa using ih i

theorem paired_current {G : Type} {Q : α → β → Prop} {c : SwCfg G τ ℝ} {c' : SwCfg G τ' ℝ} (hg : List.Forall₂ (Enlarges N n T) c.gens c'.gens)
    {m : RefGen τ ℝ → τ → Call τ α} {m' : RefGen τ' ℝ → τ' → Call τ' β}
    (hm : ∀ g g', Enlarges N n T g g' → ∀ t t', T t t' → Paired T Q (m g t) (m' g' t')) {st : SwSt G τ ℝ} {st' : SwSt G τ' ℝ}
    (hs : SwT N n T st st') : Paired (SwT N n T) Q (onCurrent c st m) (onCurrent c' st' m') := by
  obtain ⟨h1, h2, h3, h4, h5, h6, h7⟩ := hs
  rcases forall₂_get hg st.cur with ⟨e1, e2⟩ | ⟨g, g', e1, e2, hgg⟩
  · simp only [onCurrent, h5, e1, e2]
    exact paired_error ⟨h1, h2, h3, h4, h5, h6, h7⟩
  · rcases forall₂_get h1 st.cur with ⟨e3, e4⟩ | ⟨t, t', e3, e4, htt⟩
    · simp only [onCurrent, h5, e1, e2, e3, e4]
      exact paired_error ⟨h1, h2, h3, h4, h5, h6, h7⟩
    · simp only [onCurrent, h5, e1, e2, e3, e4]
      obtain ⟨h8, h9⟩ := hm g g' hgg t t' htt
      exact ⟨⟨forall₂_set h1 _ h8, h2, h3, h4, rfl, h6, h7⟩, h9⟩

/-- C133 (generators): generators that are switched -/
theorem enlarges_switched {G : Type} {c : SwCfg G τ ℝ} {c' : SwCfg G τ' ℝ} (hg : List.Forall₂ (Enlarges N n T) c.gens c'.gens)
    (hi : c'.integers = c.integers) (hch : c'.choice = c.choice) (hsp : c'.spawn = c.spawn) {M : RefGen (SwSt G τ ℝ) ℝ}
    (hM : switchedGen c = .ok M) : ∃ M', switchedGen c' = .ok M' ∧ Enlarges N n (SwT N n T) M M' := by
  obtain ⟨g, gs, hgs, hall, rfl⟩ := switchedGen_ok hM
  have hnew : ∀ st st', SwT N n T st st' → SwT N n T (swNew c st) (swNew c' st') := by
    rintro st st' ⟨h1, h2, h3, h4, h5, h6, h7⟩
    exact ⟨h1, h2, rfl, by simp [swNew, hi, h6], by simp [swNew, hi, hch, h6], by simp [swNew, hi, hch, h6], h7⟩
  have hreset : ∀ t t' s s' init init', SwT N n T t t' → Longer N n s s' →
      (init = none ∧ init' = none ∨ ∃ r r', init = some r ∧ init' = some r' ∧ Padded N n r r') →
      Paired (SwT N n T) (fun a b => Padded N n a.1 b.1 ∧ b.2 = a.2) (onCurrent c (swNew c t) (fun g t => g.reset t s init))
        (onCurrent c' (swNew c' t') (fun g t => g.reset t s' init')) := by
    intro t t' s s' init init' ht hs hini
    refine paired_current hg (fun g g' hgg t t' htt => ?_) (hnew t t' ht)
    rcases hini with ⟨rfl, rfl⟩ | ⟨r, r', rfl, rfl, hr⟩
    · exact hgg.reset t t' s s' htt hs
    · exact hgg.again t t' s s' r r' htt hs hr
  have hspawn : ∀ (st : SwSt G τ ℝ) (st' : SwSt G τ' ℝ), SwT N n T st st' → SwT N n T { st with gen := c.spawn st.spawned, spawned := st.spawned + 1 }
      { st' with gen := c'.spawn st'.spawned, spawned := st'.spawned + 1 } := by
    rintro st st' ⟨h1, h2, h3, h4, h5, h6, h7⟩
    exact ⟨h1, h2, h3, h4, h5, by simp [hsp, h7], by simp [h7]⟩
  have hg2 := hg
  cases e' : c'.gens with
  | nil => rw [hgs, e'] at hg2; cases hg2
  | cons g' gs' =>
    rw [hgs, e'] at hg2
    obtain ⟨hgg, hgs'⟩ := List.forall₂_cons.1 hg2
    have hall' : ∀ h' ∈ c'.gens, h'.names = g'.names ∧ h'.referenced = g'.referenced ∧ h'.low.length = g'.low.length ∧
        h'.high.length = g'.high.length := by
      intro h' hh'
      obtain ⟨i, hi'⟩ := List.getElem?_of_mem hh'
      rcases forall₂_get hg i with ⟨e1, e2⟩ | ⟨a, b, e1, e2, hab⟩
      · rw [e2] at hi'; cases hi'
      · rw [e2] at hi'
        cases hi'
        obtain ⟨a1, a2, a3, a4⟩ := hall a (List.mem_of_getElem? e1)
        exact ⟨by rw [hab.names, hgg.names, a1], by rw [hab.referenced, hgg.referenced, a2], by rw [hab.low, hgg.low, a3],
          by rw [hab.high, hgg.high, a4]⟩
    have ok : switchedGen c' = .ok {
        names := g'.names
        referenced := g'.referenced
        low := fold1 min (c'.gens.map (·.low))
        high := fold1 max (c'.gens.map (·.high))
        reset := swReset c'
        getRef := swRef c'
        getObs := swObs c' } := by
      unfold switchedGen
      rw [e'] at hall' ⊢
      dsimp only
      rw [if_neg, if_neg, if_neg]
      · simpa using fun h hh => (hall' h (List.mem_cons_of_mem _ hh)).2.1
      · simpa using fun h hh => (hall' h (List.mem_cons_of_mem _ hh)).2.2
      · simpa using fun h hh => (hall' h (List.mem_cons_of_mem _ hh)).1
    refine ⟨_, ok, hgg.names, ?_, ?_, hgg.width, hgg.referenced, ?_, ?_, ?_, ?_⟩
    · exact congrArg (fold1 min) (forall₂_map_eq hg fun g g' h => h.low)
    · exact congrArg (fold1 max) (forall₂_map_eq hg fun g g' h => h.high)
    · intro t t' s s' ht hs
      exact hreset _ _ s s' _ _ (hspawn t t' ht) hs (.inl ⟨rfl, rfl⟩)
    · intro t t' s s' r r' ht hs hr
      exact hreset _ _ s s' _ _ (hspawn t t' ht) hs (.inr ⟨r, r', rfl, rfl, hr⟩)
    · intro t t' s s' ht hs
      refine paired_bind (paired_current hg (fun g g' hgg t t' htt => hgg.getRef t t' s s' htt hs) ht) ?_
      rintro st st' r r' ⟨h1, -, h3⟩ hr
      exact paired_ok ⟨h1, .inr ⟨r, r', rfl, rfl, hr⟩, h3⟩ hr
    · intro t t' s s' ht hs
      refine paired_bind (Q := (· = ·)) (T := SwT N n T) ?_ ?_
      · rw [show t'.len = t.len from ht.2.2.2.1, show t'.k = t.k from ht.2.2.1]
        split_ifs with hk
        · exact paired_bind (hreset t t' s s' _ _ ht hs ht.2.1) fun st st' r r' hst hr => paired_ok hst hr.2.symm
        · exact paired_current hg (fun g g' hgg t t' htt => hgg.getObs t t' s s' htt hs) ht
      · rintro st st' o _ ⟨h1, h2, h3, h4⟩ rfl
        exact paired_ok ⟨h1, h2, by simp [h3], h4⟩ rfl

end several

end

end GEM.Props
