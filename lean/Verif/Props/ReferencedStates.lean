import Verif.Model.ReferencedStates

/-!
# C151: classic controllers compare every reference with its own state
-/

namespace GEM.Props

open GEM.ReferencedStates

/-! ## Statement -/

mutual
/-- The entries of the reference observation may be the references of these states, in this order: a switched generator returns the observation of any of its
sub generators (switched_reference_generator.py:65-81), the multiple one concatenates (multiple_reference_generator.py:70-85). -/
inductive ShowsRefs : Generator → List String → Prop
  | single (s : String) : ShowsRefs (.single s) [s]
  | zero : ShowsRefs .zero []
  | multiple {l : List Generator} {n : List String} : ShowsRefsAll l n → ShowsRefs (.multiple l) n
  | switched {l : List Generator} {g : Generator} {n : List String} : g ∈ l → ShowsRefs g n → ShowsRefs (.switched l) n
inductive ShowsRefsAll : List Generator → List String → Prop
  | nil : ShowsRefsAll [] []
  | cons {g : Generator} {l : List Generator} {n m : List String} : ShowsRefs g n → ShowsRefsAll l m → ShowsRefsAll (g :: l) (n ++ m)
end

/-! ## Names -/

theorem accepted_mem {l : List Generator} (h : AcceptedAll l) {g : Generator} (hg : g ∈ l) : Accepted g := by
  induction l with
  | nil => simp at hg
  | cons a l ih =>
    simp only [AcceptedAll] at h
    rcases List.mem_cons.1 hg with rfl | hg
    · exact h.1
    · exact ih h.2 hg

theorem equalNames_mem {n : List String} {l : List Generator} (h : EqualNames n l) {g : Generator} (hg : g ∈ l) : names g = n := by
  induction l with
  | nil => simp at hg
  | cons a l ih =>
    simp only [EqualNames] at h
    rcases List.mem_cons.1 hg with rfl | hg
    · exact h.1
    · exact ih h.2 hg

mutual
theorem shows_names {g : Generator} {n : List String} (h : ShowsRefs g n) (ha : Accepted g) : n = names g := by
  cases h with
  | single s => simp [names]
  | zero => simp [names]
  | multiple h =>
    simp only [Accepted] at ha
    simp only [names]
    exact showsAll_names h ha
  | switched hg h =>
    simp only [Accepted] at ha
    simp only [names]
    rw [← equalNames_mem ha.2.2 hg]
    exact shows_names h (accepted_mem ha.2.1 hg)
theorem showsAll_names {l : List Generator} {n : List String} (h : ShowsRefsAll l n) (ha : AcceptedAll l) : n = namesAll l := by
  cases h with
  | nil => simp [namesAll]
  | cons h1 h2 =>
    simp only [AcceptedAll] at ha
    simp only [namesAll]
    rw [← shows_names h1 ha.1, ← showsAll_names h2 ha.2]
end

mutual
theorem names_shown : ∀ (g : Generator), Accepted g → ShowsRefs g (names g)
  | .single s, _ => by simp only [names]; exact .single s
  | .zero, _ => by simp only [names]; exact .zero
  | .multiple l, h => by
    simp only [Accepted] at h
    simp only [names]
    exact .multiple (namesAll_shown l h)
  | .switched [], h => by simp [Accepted] at h
  | .switched (a :: l), h => by
    simp only [Accepted, AcceptedAll] at h
    simp only [names, namesFirst]
    exact .switched (List.mem_cons_self ..) (names_shown a h.2.1.1)
theorem namesAll_shown : ∀ (l : List Generator), AcceptedAll l → ShowsRefsAll l (namesAll l)
  | [], _ => by simp only [namesAll]; exact .nil
  | a :: l, h => by
    simp only [AcceptedAll] at h
    simp only [namesAll]
    exact .cons (names_shown a h.1) (namesAll_shown l h.2)
end

theorem own_names {g : Generator} {s : String} (h : ownState g = .ok s) : names g = [s] := by
  cases g <;> simp [ownState] at h
  simp [names, h]

theorem first_names {l : List Generator} {s : String} (h : firstState l = .ok s) : namesFirst l = [s] := by
  cases l with
  | nil => simp [firstState] at h
  | cons g l => simp only [namesFirst]; exact own_names h

theorem sub_names {g : Generator} {s : String} (h : subState g = .ok s) : names g = [s] := by
  cases g with
  | switched l => simp only [names]; exact first_names h
  | single t => exact own_names h
  | zero => exact own_names h
  | multiple l => exact own_names h

theorem subs_names : ∀ {l : List Generator} {ns : List String}, subStates l = .ok ns → namesAll l = ns
  | [], ns, h => by simpa [subStates, namesAll] using h
  | g :: l, ns, h => by
    simp only [subStates] at h
    cases hs : subState g with
    | error e => simp [hs] at h
    | ok s =>
      simp only [hs] at h
      cases hl : subStates l with
      | error e => simp [hl, Except.map] at h
      | ok ns' =>
        simp only [hl, Except.map, Except.ok.injEq] at h
        simp only [namesAll, sub_names hs, subs_names hl, ← h, List.singleton_append]

/-! ## Theorems -/

/-- `reference_names` of every accepted generator (without constant ones, C76) are the states of the entries of the reference observation, in this order, whatever sub generators are chosen. -/
theorem c151_names (g : Generator) (ha : Accepted g) (n : List String) : ShowsRefs g n ↔ n = names g :=
  ⟨fun h => shows_names h ha, fun h => h ▸ names_shown g ha⟩

/-- If a classic controller can be made at all, the state it associates with a position is the state of this entry of the reference observation. -/
theorem c151_order_partial (g : Generator) (ha : Accepted g) (ns : List String) (hc : classicStates g = .ok ns) (n : List String) (h : ShowsRefs g n) :
    n = ns := by
  rw [shows_names h ha]
  cases g with
  | multiple l => simp only [names]; exact subs_names hc
  | switched l =>
    simp only [classicStates] at hc
    cases hf : firstState l with
    | error e => simp [hf, Except.map] at hc
    | ok s =>
      simp only [hf, Except.map, Except.ok.injEq] at hc
      simp only [names, first_names hf, hc]
  | single s =>
    simp only [classicStates, ownState, Except.map, Except.ok.injEq] at hc
    simp only [names, hc]
  | zero => simp [classicStates, ownState, Except.map] at hc

/-- Generators of one state each, alone, switched, or several of both together: the controllers find the states. -/
theorem c151_found_partial (l : List (String × List String)) :
    (∀ s, classicStates (.single s) = .ok [s]) ∧ (∀ s k, classicStates (.switched (.single s :: k)) = .ok [s]) ∧
    classicStates (.multiple (l.map fun q => if q.2 = [] then .single q.1 else .switched (.single q.1 :: q.2.map .single))) = .ok (l.map Prod.fst) := by
  refine ⟨fun s => rfl, fun s k => rfl, ?_⟩
  simp only [classicStates]
  induction l with
  | nil => rfl
  | cons q l ih =>
    simp only [List.map_cons, subStates, ih]
    by_cases h : q.2 = []
    · simp [h, subState, ownState, Except.map]
    · simp [h, subState, firstState, ownState, Except.map]

/-- Violated by environments with nested generators: no classic controller can be made if a sub generator has itself sub generators (other than a switched one of
single states), or if a switched generator starts with a multiple one; nor without reference. -/
theorem c151_nested_violated (l k : List Generator) (g : Generator) (hg : g ∈ l) :
    ((∃ m, g = .multiple m) ∨ g = .zero ∨ (∃ m m', g = .switched (.multiple m :: m')) ∨ (∃ m m', g = .switched (.switched m :: m')) →
      ∃ e, classicStates (.multiple l) = .error e) ∧
    classicStates (.switched (.multiple l :: k)) = .error .attribute ∧ classicStates .zero = .error .attribute := by
  refine ⟨fun h => ?_, rfl, rfl⟩
  have hb : subState g = .error .attribute := by
    rcases h with ⟨m, rfl⟩ | rfl | ⟨m, m', rfl⟩ | ⟨m, m', rfl⟩ <;> rfl
  simp only [classicStates]
  clear h
  induction l with
  | nil => simp at hg
  | cons a l ih =>
    simp only [subStates]
    cases ha : subState a with
    | error e => exact ⟨e, rfl⟩
    | ok s =>
      rcases List.mem_cons.1 hg with rfl | hg
      · rw [hb] at ha; cases ha
      · obtain ⟨e, he⟩ := ih hg
        exact ⟨e, by simp [he, Except.map]⟩

/-- It refers to one state, or switches between generators of which the first refers to one state. -/
def DirectRef (g : Generator) : Prop := (∃ s, g = .single s) ∨ ∃ s k, g = .switched (.single s :: k)

theorem subState_ok (g : Generator) : (∃ s, subState g = .ok s) ↔ DirectRef g := by
  constructor
  · rintro ⟨s, h⟩
    cases g with
    | single t => exact .inl ⟨t, rfl⟩
    | zero => simp [subState, ownState] at h
    | multiple l => simp [subState, ownState] at h
    | switched l =>
      cases l with
      | nil => simp [subState, firstState] at h
      | cons a k => cases a <;> simp [subState, firstState, ownState] at h; exact .inr ⟨_, k, rfl⟩
  · rintro (⟨s, rfl⟩ | ⟨s, k, rfl⟩) <;> exact ⟨s, rfl⟩

theorem subStates_ok (l : List Generator) : (∃ ns, subStates l = .ok ns) ↔ ∀ g ∈ l, DirectRef g := by
  induction l with
  | nil => simp [subStates]
  | cons a l ih =>
    rw [List.forall_mem_cons, ← ih, ← subState_ok]
    simp only [subStates]
    cases subState a with
    | error e => simp
    | ok s => cases subStates l <;> simp [Except.map]

theorem subState_error {g : Generator} (ha : Accepted g) {e : Err} (h : subState g = .error e) : e = .attribute := by
  cases g with
  | single t => simp [subState, ownState] at h
  | zero => simpa [subState, ownState] using h.symm
  | multiple l => simpa [subState, ownState] using h.symm
  | switched l =>
    cases l with
    | nil => simp [Accepted] at ha
    | cons a k => cases a <;> simp [subState, firstState, ownState] at h <;> exact h.symm

theorem subStates_error : ∀ {l : List Generator}, AcceptedAll l → ∀ {e : Err}, subStates l = .error e → e = .attribute
  | [], _, _, h => by simp [subStates] at h
  | a :: l, ha, e, h => by
    simp only [AcceptedAll] at ha
    simp only [subStates] at h
    cases hs : subState a with
    | error e' =>
      simp only [hs, Except.error.injEq] at h
      exact h ▸ subState_error ha.1 hs
    | ok s =>
      simp only [hs] at h
      cases hl : subStates l with
      | ok ns => simp [hl, Except.map] at h
      | error e' =>
        simp only [hl, Except.map, Except.error.injEq] at h
        exact h ▸ subStates_error ha.2 hl

theorem classic_single {g : Generator} (hm : ∀ l, g ≠ .multiple l) : classicStates g = (subState g).map ([·]) := by
  cases g with
  | multiple l => exact absurd rfl (hm l)
  | single s => rfl
  | zero => rfl
  | switched l => rfl

/-- Exactly for which generators a controller can be made; for all others that the environment accepts an AttributeError is raised. -/
theorem c151_exact (g : Generator) :
    ((∃ ns, classicStates g = .ok ns) ↔ DirectRef g ∨ ∃ l, g = .multiple l ∧ ∀ x ∈ l, DirectRef x) ∧
    (Accepted g → ¬ (DirectRef g ∨ ∃ l, g = .multiple l ∧ ∀ x ∈ l, DirectRef x) → classicStates g = .error .attribute) := by
  have h1 : (∃ ns, classicStates g = .ok ns) ↔ DirectRef g ∨ ∃ l, g = .multiple l ∧ ∀ x ∈ l, DirectRef x := by
    by_cases hm : ∃ l, g = .multiple l
    · obtain ⟨l, rfl⟩ := hm
      simp only [classicStates, subStates_ok]
      constructor
      · exact fun h => .inr ⟨l, rfl, h⟩
      · rintro ((⟨s, h⟩ | ⟨s, k, h⟩) | ⟨l', h, h'⟩)
        · cases h
        · cases h
        · cases h; exact h'
    · have hm' : ∀ l, g ≠ .multiple l := fun l h => hm ⟨l, h⟩
      rw [classic_single hm', ← subState_ok]
      constructor
      · rintro ⟨ns, h⟩
        cases hs : subState g with
        | error e => simp [hs, Except.map] at h
        | ok s => exact .inl ⟨s, rfl⟩
      · rintro (⟨s, h⟩ | ⟨l, h, -⟩)
        · exact ⟨[s], by rw [h]; rfl⟩
        · exact absurd h (hm' l)
  refine ⟨h1, fun ha hn => ?_⟩
  rw [← h1] at hn
  cases hc : classicStates g with
  | ok ns => exact absurd ⟨ns, hc⟩ hn
  | error e =>
    congr 1
    by_cases hm : ∃ l, g = .multiple l
    · obtain ⟨l, rfl⟩ := hm
      simp only [Accepted] at ha
      exact subStates_error ha hc
    · rw [classic_single fun l h => hm ⟨l, h⟩] at hc
      cases hs : subState g with
      | ok s => simp [hs, Except.map] at hc
      | error e' =>
        simp only [hs, Except.map, Except.error.injEq] at hc
        exact hc ▸ subState_error ha hs

theorem mem_namesAll {s : String} {l : List Generator} : s ∈ namesAll l ↔ ∃ g ∈ l, s ∈ names g := by
  induction l with
  | nil => simp [namesAll]
  | cons a l ih => simp [namesAll, ih]

mutual
theorem attached_nodup : ∀ (g : Generator), Attached g → (names g).Nodup
  | .single s, _ => by simp [names]
  | .zero, _ => by simp [names]
  | .multiple l, h => by
    simp only [Attached] at h
    simp only [names]
    exact attachedAll_nodup l h.1 h.2
  | .switched [], _ => by simp [names, namesFirst]
  | .switched (a :: l), h => by
    simp only [Attached, AttachedAll] at h
    simp only [names, namesFirst]
    exact attached_nodup a h.1.1
theorem attachedAll_nodup : ∀ (l : List Generator), AttachedAll l → (∀ s, (l.filter fun g => s ∈ names g).length < 2) → (namesAll l).Nodup
  | [], _, _ => by simp [namesAll]
  | a :: l, h, hs => by
    simp only [AttachedAll] at h
    simp only [namesAll]
    refine List.nodup_append.2 ⟨attached_nodup a h.1, attachedAll_nodup l h.2 fun s => ?_, fun s h1 t h2 he => ?_⟩
    · exact Nat.lt_of_le_of_lt ((List.sublist_cons_self a l).filter _).length_le (hs s)
    · subst he
      obtain ⟨g, hg, hm⟩ := mem_namesAll.1 h2
      have hp : 0 < (l.filter fun g => s ∈ names g).length :=
        List.length_pos_of_mem (List.mem_filter.2 ⟨hg, by simpa using hm⟩)
      have := hs s
      rw [List.filter_cons_of_pos (by simpa using h1), List.length_cons] at this
      omega
end

/-- No state is referenced twice: an environment that accepts the generator never shows two references of one state, and the controller has different states at
different positions. -/
theorem c151_distinct (g : Generator) (ha : Accepted g) (hm : Attached g) (n : List String) (h : ShowsRefs g n) :
    n.Nodup ∧ ∀ ns, classicStates g = .ok ns → ns.Nodup := by
  have hn : n.Nodup := shows_names h ha ▸ attached_nodup g hm
  exact ⟨hn, fun ns hc => c151_order_partial g ha ns hc n h ▸ hn⟩

theorem attached_mem {l : List Generator} (h : AttachedAll l) {g : Generator} (hg : g ∈ l) : Attached g := by
  induction l with
  | nil => simp at hg
  | cons a l ih =>
    simp only [AttachedAll] at h
    rcases List.mem_cons.1 hg with rfl | hg
    · exact h.1
    · exact ih h.2 hg

theorem sameStates_mem {n : List String} {l : List Generator} (h : SameStates n l) {g : Generator} (hg : g ∈ l) (s : String) : s ∈ names g ↔ s ∈ n := by
  induction l with
  | nil => simp at hg
  | cons a l ih =>
    simp only [SameStates] at h
    rcases List.mem_cons.1 hg with rfl | hg
    · exact h.1 s
    · exact ih h.2 hg

theorem share_none {a : Generator} {l : List Generator} (hs : ∀ s, ((a :: l).filter fun g => s ∈ names g).length < 2) {s : String} (h1 : s ∈ names a) :
    s ∉ namesAll l := by
  intro h2
  obtain ⟨g, hg, hm⟩ := mem_namesAll.1 h2
  have hp : 0 < (l.filter fun g => s ∈ names g).length :=
    List.length_pos_of_mem (List.mem_filter.2 ⟨hg, by simpa using hm⟩)
  have := hs s
  rw [List.filter_cons_of_pos (by simpa using h1), List.length_cons] at this
  omega

mutual
theorem shows_states {g : Generator} {n : List String} (h : ShowsRefs g n) (ha : Attached g) : n.Nodup ∧ ∀ s, s ∈ n ↔ s ∈ names g := by
  cases h with
  | single s => simp [names]
  | zero => simp [names]
  | multiple h =>
    simp only [Attached] at ha
    simp only [names]
    exact showsAll_states h ha.1 ha.2
  | switched hg h =>
    simp only [Attached] at ha
    simp only [names]
    have := shows_states h (attached_mem ha.1 hg)
    exact ⟨this.1, fun s => (this.2 s).trans (sameStates_mem ha.2 hg s)⟩
theorem showsAll_states {l : List Generator} {n : List String} (h : ShowsRefsAll l n) (ha : AttachedAll l)
    (hs : ∀ s, (l.filter fun g => s ∈ names g).length < 2) : n.Nodup ∧ ∀ s, s ∈ n ↔ s ∈ namesAll l := by
  cases h with
  | nil => simp [namesAll]
  | cons h1 h2 =>
    simp only [AttachedAll] at ha
    have a := shows_states h1 ha.1
    have b := showsAll_states h2 ha.2 fun s => Nat.lt_of_le_of_lt ((List.sublist_cons_self _ _).filter _).length_le (hs s)
    refine ⟨List.nodup_append.2 ⟨a.1, b.1, fun s hs1 t ht he => ?_⟩, fun s => ?_⟩
    · subst he
      exact share_none hs ((a.2 s).1 hs1) ((b.2 s).1 ht)
    · simp only [namesAll, List.mem_append, a.2 s, b.2 s]
end

theorem eq_single_of_nodup {n : List String} {t : String} (h : n.Nodup) (hm : ∀ s, s ∈ n ↔ s ∈ [t]) : n = [t] := by
  match n, h, hm with
  | [], _, hm => simpa using (hm t).2 (by simp)
  | [a], _, hm => simpa using (hm a).1 (by simp)
  | a :: b :: k, h, hm =>
    have e1 : a = t := by simpa using (hm a).1 (by simp)
    have e2 : b = t := by simpa using (hm b).1 (by simp)
    subst e1 e2
    simp at h

theorem showsAll_subs : ∀ {l : List Generator} {ns n : List String}, AttachedAll l → subStates l = .ok ns → ShowsRefsAll l n → n = ns
  | [], ns, n, _, hc, h => by
    cases h
    simpa [subStates] using hc
  | a :: l, ns, _, ha, hc, .cons h1 h2 => by
    simp only [AttachedAll] at ha
    simp only [subStates] at hc
    cases hs : subState a with
    | error e => simp [hs] at hc
    | ok s =>
      simp only [hs] at hc
      cases hl : subStates l with
      | error e => simp [hl, Except.map] at hc
      | ok ns' =>
        simp only [hl, Except.map, Except.ok.injEq] at hc
        have a1 := shows_states h1 ha.1
        rw [sub_names hs] at a1
        rw [eq_single_of_nodup a1.1 a1.2, showsAll_subs ha.2 hl h2, ← hc, List.singleton_append]

/-- The same from what `set_modules` asserts, which needs no `reference_names` and therefore holds with constant generators: the controller has the state of each entry of
the observation, and no state occurs twice. -/
theorem c151_attached_partial (g : Generator) (ha : Attached g) (n : List String) (h : ShowsRefs g n) :
    n.Nodup ∧ ∀ ns, classicStates g = .ok ns → n = ns := by
  have hn := shows_states h ha
  refine ⟨hn.1, fun ns hc => ?_⟩
  by_cases hm : ∃ l, g = .multiple l
  · obtain ⟨l, rfl⟩ := hm
    simp only [Attached] at ha
    cases h with
    | multiple h => exact showsAll_subs ha.1 hc h
  · rw [classic_single fun l h => hm ⟨l, h⟩] at hc
    cases hs : subState g with
    | error e => simp [hs, Except.map] at hc
    | ok s =>
      simp only [hs, Except.map, Except.ok.injEq] at hc
      rw [sub_names hs] at hn
      rw [← hc]
      exact eq_single_of_nodup hn.1 hn.2

/-- An environment for current control that switches between two pairs of references: accepted, each observation has the references of `i_sd` and `i_sq`, but no
classic controller can be made for it. -/
example : let pair := Generator.multiple [.single "i_sd", .single "i_sq"]
    Accepted (.switched [pair, pair]) ∧ Attached pair ∧ ShowsRefs (.switched [pair, pair]) ["i_sd", "i_sq"] ∧ classicStates (.switched [pair, pair]) = .error .attribute := by
  refine ⟨by simp [Accepted, AcceptedAll, EqualNames, namesFirst, names, namesAll], ⟨by simp [AttachedAll, Attached], fun s => ?_⟩, ?_, rfl⟩
  · by_cases h : s = "i_sd"
    · subst h; simp [names]
    · by_cases h' : s = "i_sq" <;> simp [names, h, h']
  exact .switched (List.mem_cons_self ..) (.multiple (.cons (.single _) (.cons (.single _) .nil)))

/-- Externally excited motor with a switched reference of the torque and one of `i_e`. -/
example : ∃ n, ShowsRefs (.multiple [.switched [.single "torque", .single "torque"], .single "i_e"]) n ∧
    classicStates (.multiple [.switched [.single "torque", .single "torque"], .single "i_e"]) = .ok n :=
  ⟨["torque", "i_e"], .multiple (.cons (.switched (List.mem_cons_self ..) (.single _)) (.cons (.single _) .nil)), rfl⟩

/-- It meets the hypotheses of the theorems. -/
example : Attached (.multiple [.switched [.single "torque", .single "torque"], .single "i_e"]) := by
  simp only [Attached, AttachedAll, SameStates, names, namesFirst]
  refine ⟨by simp, fun s => ?_⟩
  by_cases h : s = "torque"
  · subst h; simp [names, namesFirst]
  · by_cases h' : s = "i_e" <;> simp [names, namesFirst, h, h']

end GEM.Props
