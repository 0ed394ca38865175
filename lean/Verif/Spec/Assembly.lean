import Verif.Model.Assembly
import Verif.Spec.References
import Verif.Spec.Reward

/-!
# Vocabulary for the statements about whole environments
-/

namespace GEM.Assembly

open GEM GEM.Core GEM.Refs GEM.Reward

/-- The state violates one of the constraints: the normalised value of a limited state is beyond ±1 (`limited`; the name `allStates`
stands for all of them), or the normalised values of a squared group are outside the unit ball. -/
def Violates (lower : String → String) (allStates : String) (names limited : List String) (squares : List (List String))
    (s : List ℝ) : Prop :=
  (∃ (i : ℕ) (n : String) (x : ℝ), names[i]? = some n ∧ s[i]? = some x ∧ 1 < |x| ∧ ∃ k ∈ limited, k = allStates ∨ lower k = n) ∨
  ∃ g ∈ squares, 1 < (g.map fun n => entry s (names.idxOf n) ^ 2).sum

/-- What an environment needs from a reference generator, for a state space with the bounds `low` and `high`: every reset of a `fresh`
generator answers and makes it `ready`; a `ready` generator always answers, with references inside the state space and with
observations inside its reference space. -/
structure Provides {τ : Type} (g : RefGen τ ℝ) (low high : List ℝ) (fresh ready : τ → Prop) : Prop where
  reset : ∀ t s init, fresh t → (∀ x, init = some x → x.length = low.length) →
    ∃ t' r o, g.reset t s init = (t', .ok (r, o)) ∧ r.length = low.length ∧ Within g.low g.high o ∧ ready t'
  getRef : ∀ t s, ready t → ∃ t' r, g.getRef t s = (t', .ok r) ∧ Within low high r ∧ ready t'
  getObs : ∀ t s, ready t → ∃ t' o, g.getObs t s = (t', .ok o) ∧ Within g.low g.high o ∧ ready t'
  fresh : ∀ t, ready t → fresh t

variable {Y U A S C P G τ : Type}

/-- The names of the observed states. -/
def shown (c : Setup Y U A S C P G τ) : List String :=
  match c.filter with
  | none => c.names
  | some [] => c.names
  | some l => l

/-- The observation shows the state `s`: one value per observed name, and a reference observation inside the reference space. -/
def Shows (c : Setup Y U A S C P G τ) (s : List ℝ) (o : List ℝ × List ℝ) : Prop :=
  s.length = c.names.length ∧ o.1 = (shown c).map (fun n => entry s (c.names.idxOf n)) ∧ Within c.gen.low c.gen.high o.2

/-- The result of a step: it shows a state, the episode ends exactly if that state violates a constraint, the reward is then the
violation reward `v`, and otherwise within `[lo, hi]` if the state is inside the state space. -/
def StepOk (c : Setup Y U A S C P G τ) (lo hi v : ℝ) (r : StepResult (List ℝ) (List ℝ) ℝ) : Prop :=
  ∃ s, Shows c s r.obs ∧ r.truncated = false ∧
    (r.terminated = true ↔ Violates c.lower c.allStates c.names c.limited c.squares s) ∧
    (r.terminated = true → r.reward = v) ∧
    (r.terminated = false → Within c.low c.high s → lo ≤ r.reward ∧ r.reward ≤ hi)

/-- The history of an environment, from its beginning (`ended`: no episode is running): resets always answer, steps of a running
episode always answer, other steps are rejected. -/
def Conforms {σ : Type} (c : Setup Y U A S C P G τ) (lo hi v : ℝ) :
    Bool → List (Op σ A × Out (List ℝ) (List ℝ) ℝ) → Prop
  | _, [] => True
  | _, (.reset _, out) :: h => (∃ s o, out = .resetOk o ∧ Shows c s o) ∧ Conforms c lo hi v false h
  | true, (.step _, out) :: h => out = .step .rejected ∧ Conforms c lo hi v true h
  | false, (.step _, out) :: h => ∃ r, out = .step (.done r) ∧ StepOk c lo hi v r ∧ Conforms c lo hi v r.terminated h
  | ended, (_, _) :: h => Conforms c lo hi v ended h

/-- The calls of a user who takes actions of the action space and does not exchange modules. -/
def Proper {σ : Type} (space : A → Prop) : Op σ A → Prop
  | .reset _ => True
  | .step a => space a
  | .close => True
  | .setRef _ => False
  | .setReward _ => False

end GEM.Assembly
