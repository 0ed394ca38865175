import Verif.Model.Assembly

/-!
# Replacing the reference generator  (`src/gym_electric_motor/core.py`, lines 133–144)

The setter of `reference_generator` assigns the attribute and ends the episode (`Op.setRef` of `Model/Env.lean`).  It does not call
`set_modules`: the new generator is not told the physical system, the reward function is not told the new generator, and
`observation_space` and `reward_range`, which are computed in `__init__` (lines 271–281), stay as they are.
-/

namespace GEM.Assembly

open GEM GEM.Core GEM.Refs GEM.Reward

variable {Y U A S C P G τ ρ : Type}

/-- The attribute `_reference_generator` of an environment that is constructed with `g` (attributes `.inl`) and may get `h` (attributes
`.inr`) later.  `referenced`, `low`, `high` are those of `g`: what the reward function and `observation_space` took note of in
`__init__`. -/
def later (g : RefGen τ ℝ) (h : RefGen ρ ℝ) : RefGen (τ ⊕ ρ) ℝ where
  names := g.names
  referenced := g.referenced
  low := g.low
  high := g.high
  reset t s i := match t with
    | .inl t => let r := g.reset t s i; (.inl r.1, r.2)
    | .inr t => let r := h.reset t s i; (.inr r.1, r.2)
  getRef t s := match t with
    | .inl t => let r := g.getRef t s; (.inl r.1, r.2)
    | .inr t => let r := h.getRef t s; (.inr r.1, r.2)
  getObs t s := match t with
    | .inl t => let r := g.getObs t s; (.inl r.1, r.2)
    | .inr t => let r := h.getObs t s; (.inr r.1, r.2)

/-- The environment `c`, to which the generator `h` may be assigned; `seedNew` is the effect of seeding on `h` (core.py 373–385 seeds
the generator that is there at that time). -/
def replaceable (c : Setup Y U A S C P G τ) (h : RefGen ρ ℝ) (seedNew : ℕ → ρ → ρ) : Setup Y U A S C P G (τ ⊕ ρ) :=
  { c with gen := later c.gen h, seedRef := fun n => Sum.map (c.seedRef n) (seedNew n) }

/-- The environment constructed with `h` from the start. -/
def constructedWith (c : Setup Y U A S C P G τ) (h : RefGen ρ ℝ) (seedNew : ℕ → ρ → ρ) : Setup Y U A S C P G ρ :=
  { c with gen := h, seedRef := seedNew }

/-- `env.reference_generator = h` (lines 135–144), `h` with the attributes `t`. -/
def assign (t : ρ) : Op (World S C P G (τ ⊕ ρ)) A := .setRef fun x => { x with ref := .inr t }

/-! ## Generators that have not been told the physical system -/

/-- A `ConstReferenceGenerator` without `set_modules`: `_referenced_states` is `None` (core.py 428), so that `np.zeros_like(None)` is an
array without dimensions and `reference[None] = value` sets its only entry (const_reference_generator.py 31–35).  In
`state - reference` it counts for every state. -/
def rawConst (name : String) (v : ℝ) : RefGen Unit ℝ where
  names := .str name
  referenced := []
  low := [v]
  high := [v]
  reset _ s _ := ((), .ok (List.replicate s.length v, [v]))
  getRef _ s := ((), .ok (List.replicate s.length v))
  getObs _ _ := ((), .ok [v])

/-- The other generators of the package, as the user constructs them.  `wave`: sinusoidal, triangular, sawtooth, step; `wiener` with or
without `initial_range`. -/
inductive Raw where
  | zero
  | multiple
  | wave (margin : Margin ℝ)
  | wiener (margin : Margin ℝ) (initial : Bool)
  | laplace (margin : Margin ℝ)

/-- The exception of `reset` without `set_modules`, for sub-episodes of at least one step; `none`: there need not be one.

* zero (zero_reference_generator.py 20) and multiple (multiple_reference_generator.py 69) generators ask `None` for `state_names`;
* waves take `_limit_margin[1]`, then the sampling time of the physical system (sinusoidal_reference_generator.py 48–56, and alike);
* Wiener processes take `_initial_range[0]` (wiener_process_reference_generator.py 44–48), both processes `_limit_margin[1]`
  (37, laplace_process_reference_generator.py 31). -/
def Raw.refusal : Raw → Option Err
  | .zero => some .attribute
  | .multiple => some .attribute
  | .wave (.pair _ _) => some .attribute
  | .wave .other => none
  | .wave _ => some .type
  | .wiener _ false => some .type
  | .wiener (.pair _ _) true => none
  | .wiener .other true => none
  | .wiener _ true => some .type
  | .laplace (.pair _ _) => none
  | .laplace .other => none
  | .laplace _ => some .type

/-- `h` behaves like the generator without `set_modules`, as far as `reset` is concerned. -/
def Raw.IsReset (r : Raw) (h : RefGen ρ ℝ) : Prop := ∀ e, r.refusal = some e → ∀ t s i, (h.reset t s i).2 = .error e

end GEM.Assembly
