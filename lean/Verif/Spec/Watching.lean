import Verif.Spec.WrappedEnv

/-!
# Vocabulary for the comparison of environments with and without wrappers that add states
-/

namespace GEM.Assembly

open GEM GEM.Core GEM.Refs GEM.Wrap GEM.Motor GEM.Utils

/-- Systems made from `p₀` with wrappers that only add states, in any order and number: the wrapped system, the state of `p₀` inside, what
is appended to the state vector.  Angles are not removed; flux observers are put around systems without limits that are zero. -/
inductive Watching {σ₀ A : Type} (p₀ : Plant σ₀ A) : ∀ {σ : Type}, Plant σ A → (σ → σ₀) → List (String × ℝ × ℝ) → Prop
  | none : Watching p₀ p₀ id []
  | cosSin {σ : Type} (p : Plant σ A) (inner : σ → σ₀) (ext : List (String × ℝ × ℝ)) (angle : String) (w : PSys σ A) :
      Watching p₀ p inner ext → cosSin angle false p.ps = .ok w →
      Watching p₀ (p.same w) inner (ext ++ [("cos(" ++ angle ++ ")", -1, 1), ("sin(" ++ angle ++ ")", -1, 1)])
  | sum {σ : Type} (p : Plant σ A) (inner : σ → σ₀) (ext : List (String × ℝ × ℝ)) (currents : List String) (mode : Bool) (w : PSys σ A) :
      Watching p₀ p inner ext → currentSum currents mode p.ps = .ok w → Watching p₀ (p.same w) inner (ext ++ [("i_sum", -1, 1)])
  | flux {σ : Type} (p : Plant σ A) (inner : σ → σ₀) (ext : List (String × ℝ × ℝ)) (m : ImParams ℝ) (na nb nc : String) (isd : ℝ)
      (w : PSys (σ × ℂ) A) : Watching p₀ p inner ext → fluxObserver m na nb nc p.ps = .ok w →
      p.ps.limits[p.ps.names.idxOf "i_sd"]? = some isd → (∀ x ∈ p.ps.limits, x ≠ 0) →
      Watching p₀ (p.under w) (fun st => inner st.1)
        (ext ++ [("psi_abs", -(m.lm * isd), m.lm * isd), ("psi_angle", -Real.pi, Real.pi)])

/-- Two calls with related outcomes: related objects afterwards, and related answers or the same exception. -/
def Paired {σ σ' α β : Type} (T : σ → σ' → Prop) (Q : α → β → Prop) (r : Call σ α) (r' : Call σ' β) : Prop :=
  T r.1 r'.1 ∧ match r.2, r'.2 with
    | .ok a, .ok b => Q a b
    | .error e, .error e' => e = e'
    | _, _ => False

/-- `r'` is `r` with `n` zeros behind its `N` entries -/
def Padded (N n : ℕ) (r r' : List ℝ) : Prop := r.length = N ∧ r' = r ++ List.replicate n 0

/-- `s'` is `s` with any `n` numbers behind its `N` entries -/
def Longer (N n : ℕ) (s s' : List ℝ) : Prop := s.length = N ∧ ∃ e : List ℝ, e.length = n ∧ s' = s ++ e

/-- A reference generator set up for `N` states and one set up for `n` more: they reference the same states in the same range, and in related
states they answer alike. -/
structure Enlarges {τ τ' : Type} (N n : ℕ) (T : τ → τ' → Prop) (gen : RefGen τ ℝ) (gen' : RefGen τ' ℝ) : Prop where
  names : gen'.names = gen.names
  low : gen'.low = gen.low
  high : gen'.high = gen.high
  width : gen.referenced.length = N
  referenced : gen'.referenced = gen.referenced ++ List.replicate n false
  reset : ∀ t t' s s', T t t' → Longer N n s s' →
    Paired T (fun a b => Padded N n a.1 b.1 ∧ b.2 = a.2) (gen.reset t s .none) (gen'.reset t' s' .none)
  again : ∀ t t' s s' r r', T t t' → Longer N n s s' → Padded N n r r' →
    Paired T (fun a b => Padded N n a.1 b.1 ∧ b.2 = a.2) (gen.reset t s (some r)) (gen'.reset t' s' (some r'))
  getRef : ∀ t t' s s', T t t' → Longer N n s s' → Paired T (Padded N n) (gen.getRef t s) (gen'.getRef t' s')
  getObs : ∀ t t' s s', T t t' → Longer N n s s' → Paired T (· = ·) (gen.getObs t s) (gen'.getObs t' s')

/-- Weights given by name, or left to the function while something is referenced; powers given by name or as one number. -/
def ByName (weights : Option (Input String ℝ)) (referenced : List Bool) (power : Input String ℝ) : Prop :=
  ((∃ d, weights = some (.dict d)) ∨ weights = none ∧ referenced.any id = true) ∧ ((∃ d, power = .dict d) ∨ ∃ x, power = .scalar x)

/-- Calls of an environment that exchange no modules. -/
inductive Use (A : Type) where
  | reset (entropy : ℕ)
  | step (a : A)
  | close

/-- The call, for an environment with modules `σ`. -/
def Use.op {A : Type} (σ : Type) : Use A → Op σ A
  | .reset n => .reset n
  | .step a => .step a
  | .close => .close

/-- What a caller sees of two environments: the same, except that the observed states are only related. -/
inductive Agree (V : List ℝ → List ℝ → Prop) : Out (List ℝ) (List ℝ) ℝ → Out (List ℝ) (List ℝ) ℝ → Prop
  | reset (s s' o : List ℝ) : V s s' → Agree V (.resetOk (s, o)) (.resetOk (s', o))
  | resetRaised (e : Err) : Agree V (.resetRaised e) (.resetRaised e)
  | rejected : Agree V (.step .rejected) (.step .rejected)
  | raised (e : Err) : Agree V (.step (.raised e)) (.step (.raised e))
  | done (s s' o : List ℝ) (reward : ℝ) (terminated truncated : Bool) : V s s' →
      Agree V (.step (.done ⟨(s, o), reward, terminated, truncated⟩)) (.step (.done ⟨(s', o), reward, terminated, truncated⟩))
  | none : Agree V .none .none

/-- What the caller sees of a history of calls. -/
noncomputable def outcomes {σ A S R O : Type} (C : Comps σ A S R O ℝ) (env : Env σ A S R O ℝ) (uses : List (Use A)) : List (Out S O ℝ) :=
  (run C env (uses.map (Use.op σ))).2.map Prod.snd

/-- The environment with another physical system and another reference generator, everything else as it was. -/
def Setup.renewed {Y U A B S C P G τ τ' σ : Type} (c : Setup Y U A S C P G τ) (q : Plant σ B) (gen : RefGen τ' ℝ) (seedRef : ℕ → τ' → τ') :
    WSetup σ B τ' where
  plant := q
  gen := gen
  seedRef := seedRef
  lower := c.lower
  allStates := c.allStates
  wse := c.wse
  limited := c.limited
  squares := c.squares
  filter := c.filter
  nCb := c.nCb

end GEM.Assembly
