import Verif.Model.WrappedEnv
import Verif.Spec.Assembly

/-!
# Vocabulary for the statements about environments with physical system wrappers
-/

namespace GEM.Assembly

open GEM GEM.Wrap GEM.Motor

/-- What an environment needs from its physical system: every reset of an `idle` system answers and makes it `running`; a `running`
system answers to every action of the action space; the answers have one entry per name; `k` counts the steps since the last reset. -/
structure Answers {σ A : Type} (p : Plant σ A) (space : A → Prop) (idle running : σ → Prop) : Prop where
  reset : ∀ st, idle st → ∃ st' s, p.ps.reset st = (st', .ok s) ∧ s.length = p.ps.names.length ∧ running st' ∧ p.steps st' = 0
  simulate : ∀ st a, running st → space a →
    ∃ st' s, p.ps.simulate st a = (st', .ok s) ∧ s.length = p.ps.names.length ∧ running st' ∧ p.steps st' = p.steps st + 1
  again : ∀ st, running st → idle st
  seed : ∀ n st, idle st → idle (p.seed n st)

/-- Systems made from `p₀` with the wrappers of the package, in any order and number: the wrapped system, its action space, the state of
`p₀` inside, what is appended to the state vector (name, lower and upper bound), and whether noise is added.

Angles are not removed; reset actions of dead times exist and are actions; noise is drawn in buffers with `len` rows and one column per
selected state; behind the action processors are systems for three, four and six voltages; flux observers are put around systems without
limits that are zero. -/
inductive Wrapping {σ₀ A₀ : Type} (p₀ : Plant σ₀ A₀) (space₀ : A₀ → Prop) :
    ∀ {σ A : Type}, Plant σ A → (A → Prop) → (σ → σ₀) → List (String × ℝ × ℝ) → Bool → Prop
  | none : Wrapping p₀ space₀ p₀ space₀ id [] false
  | dead {σ A : Type} (p : Plant σ A) (space : A → Prop) (inner : σ → σ₀) (ext : List (String × ℝ × ℝ)) (noisy : Bool) (n : ℕ) (ra : ℕ → List A) :
      Wrapping p₀ space₀ p space inner ext noisy → 0 < n → (∀ k, ra k ≠ [] ∧ ∀ a ∈ ra k, space a) →
      Wrapping p₀ space₀ (p.under (deadTime n ra p.ps)) space (fun st => inner st.1) ext noisy
  | cosSin {σ A : Type} (p : Plant σ A) (space : A → Prop) (inner : σ → σ₀) (ext : List (String × ℝ × ℝ)) (noisy : Bool) (angle : String)
      (w : PSys σ A) : Wrapping p₀ space₀ p space inner ext noisy → cosSin angle false p.ps = .ok w →
      Wrapping p₀ space₀ (p.same w) space inner (ext ++ [("cos(" ++ angle ++ ")", -1, 1), ("sin(" ++ angle ++ ")", -1, 1)]) noisy
  | sum {σ A : Type} (p : Plant σ A) (space : A → Prop) (inner : σ → σ₀) (ext : List (String × ℝ × ℝ)) (noisy : Bool) (currents : List String)
      (mode : Bool) (w : PSys σ A) : Wrapping p₀ space₀ p space inner ext noisy → currentSum currents mode p.ps = .ok w →
      Wrapping p₀ space₀ (p.same w) space inner (ext ++ [("i_sum", -1, 1)]) noisy
  | noise {σ A G : Type} (p : Plant σ A) (space : A → Prop) (inner : σ → σ₀) (ext : List (String × ℝ × ℝ)) (noisy : Bool) (sel : Selection)
      (len : ℕ) (draw : G → G × List (List ℝ)) (spawn : ℕ → G) (w : PSys (σ × NoiseSt G) A) :
      Wrapping p₀ space₀ p space inner ext noisy → stateNoise sel len draw spawn p.ps = .ok w → 0 < len →
      (∀ g, (draw g).2.length = len ∧ ∀ row ∈ (draw g).2, row.length = sel.iter.length) →
      Wrapping p₀ space₀ (p.under w) space (fun st => inner st.1) ext true
  | classic {σ : Type} (p : Plant σ (List ℝ)) (space : List ℝ → Prop) (inner : σ → σ₀) (ext : List (String × ℝ × ℝ)) (noisy : Bool) (angle : String)
      (polePairs : ℝ) (w : PSys (σ × Option (List ℝ)) (List ℝ)) : Wrapping p₀ space₀ p space inner ext noisy →
      dqClassic angle polePairs p.ps = .ok w → (∀ a, a.length = 3 → space a) →
      Wrapping p₀ space₀ (p.under w) (fun a => a.length = 2) (fun st => inner st.1) ext noisy
  | eesm {σ : Type} (p : Plant σ (List ℝ)) (space : List ℝ → Prop) (inner : σ → σ₀) (ext : List (String × ℝ × ℝ)) (noisy : Bool)
      (polePairs : ℝ) (w : PSys (σ × Option (List ℝ)) (List ℝ)) : Wrapping p₀ space₀ p space inner ext noisy →
      dqEesm polePairs p.ps = .ok w → (∀ a, a.length = 4 → space a) →
      Wrapping p₀ space₀ (p.under w) (fun a => a.length = 3) (fun st => inner st.1) ext noisy
  | dfim {σ : Type} (p : Plant σ (List ℝ)) (space : List ℝ → Prop) (inner : σ → σ₀) (ext : List (String × ℝ × ℝ)) (noisy : Bool)
      (polePairs : ℝ) (w : PSys (σ × Option (List ℝ)) (List ℝ)) : Wrapping p₀ space₀ p space inner ext noisy →
      dqDfim polePairs p.ps = .ok w → (∀ a, a.length = 6 → space a) →
      Wrapping p₀ space₀ (p.under w) (fun a => a.length = 4) (fun st => inner st.1) ext noisy
  | flux {σ A : Type} (p : Plant σ A) (space : A → Prop) (inner : σ → σ₀) (ext : List (String × ℝ × ℝ)) (noisy : Bool) (m : ImParams ℝ)
      (na nb nc : String) (isd : ℝ) (w : PSys (σ × ℂ) A) : Wrapping p₀ space₀ p space inner ext noisy →
      fluxObserver m na nb nc p.ps = .ok w → p.ps.limits[p.ps.names.idxOf "i_sd"]? = some isd → (∀ x ∈ p.ps.limits, x ≠ 0) →
      Wrapping p₀ space₀ (p.under w) space (fun st => inner st.1)
        (ext ++ [("psi_abs", -(m.lm * isd), m.lm * isd), ("psi_angle", -Real.pi, Real.pi)]) noisy

/-- What a wrapped system has to do with the inner system: every reset and every step that answers calls the inner one exactly once, with
some action, and, unless noise is added, the answer begins with the answer of the inner system; `seed` goes to the inner system. -/
structure Carries {σ₀ A₀ σ A : Type} (p₀ : Plant σ₀ A₀) (p : Plant σ A) (inner : σ → σ₀) (noisy : Bool) : Prop where
  reset : ∀ st v, (p.ps.reset st).2 = .ok v →
    ∃ v₀, p₀.ps.reset (inner st) = (inner (p.ps.reset st).1, .ok v₀) ∧ (noisy = false → v₀ <+: v)
  simulate : ∀ st a v, (p.ps.simulate st a).2 = .ok v →
    ∃ a₀ v₀, p₀.ps.simulate (inner st) a₀ = (inner (p.ps.simulate st a).1, .ok v₀) ∧ (noisy = false → v₀ <+: v)
  seed : ∀ n st, inner (p.seed n st) = p₀.seed n (inner st)

end GEM.Assembly
