# Formal model of gym-electric-motor: design

## What is trusted

* The Lean 4.33.0 kernel and the Mathlib build installed in this sandbox.
* Axioms: every property theorem depends on at most `propext`, `Classical.choice`, `Quot.sound`
  (see the last section; checked with `#print axioms` by `vcheck`). No own axioms, no `sorry`, no `native_decide`/`bv_decide`.
* The reading of the Python source. The code is never executed; each model definition cites the file and lines
  it was read from. Wherever the model is simpler than the code the comment says so. `tools/registry.py` reads the classes
  in `/repo` as text and compares their default arguments with the table in `Verif.Model.Registry`.

## Modelling conventions

* **Numbers.** Python floats / numpy float64 are modelled by exact numbers: a linearly ordered field `K`
  (executable at `ℚ`) where only arithmetic and comparison occur, and `ℝ` where `cos`, `sin`, `sqrt`, `π` occur.
  Rounding, overflow, `nan` and `inf` are therefore *not* modelled. A claim about exact equality in Lean is a claim
  about the formula in the code, not about its last bits.
* **Exceptions** are values (`Except`-like sums). Division: the hypotheses name the non-zero denominators.
* **Mutation** becomes state passing; methods are `State → Input → State × Output`.
* **Python object identity / aliasing** (class-level dictionaries, `+=` on class-level lists) is modelled by an explicit
  heap (`Verif.Model.Sharing`, `Verif.Model.Alias`), only where a property is about it.
* **Randomness**: every draw is an argument (a stream of values or an abstract generator function), so that theorems
  quantify over all outcomes. numpy's generators themselves are not modelled.
* **External code**: scipy solvers, `np.roots`, user callables, gymnasium spaces, matplotlib are parameters.
  What is assumed of a parameter is an explicit hypothesis of the theorem using it.
* Properties that the code violates: the negation is proved with a concrete witness (`..._violated`) and the part that
  does hold is proved with suffix `_partial`.

## Layout

* `Verif/Spec/*.lean` — small independent specifications (what "clip", "wrap", "delay by n", "well-formed trace",
  ... mean), not using model helpers.
* `Verif/Model/*.lean` — the model, function by function with source citations.
* `Verif/Proofs/*.lean` — helper lemmas.
* `Verif/Props/*.lean` — the property theorems, with an `example` beside each that its hypotheses can be met.

## What is modelled

All paths below `/repo/src`, unless they begin with `examples`. Every definition cites its lines; the comment says what is left out of a function.

| code | model |
|------|-------|
| `gym_electric_motor/core.py`: environment loop, callbacks, constraint monitor, reference generator base; `__init__` with the components below | `Env`, `Utils`, `References`, `Assembly`, `Replacement` (setter of the reference generator), `WrappedEnv` (environments with wrappers) |
| `utils.py`, `constraints.py` | `Utils`, `Alias` (sharing of constraint objects) |
| `random_component.py` and the `seed` methods | `Seeding`, `SeededRefs` (reference generators with their seed sequence) |
| `physical_systems/physical_systems.py`: all systems, `simulate`, `reset`, system equation, Jacobian, transformations | `Systems`, `Transforms` |
| `converters.py` (all classes), histories of calls | `Converters`, `ConverterHistory` |
| `voltage_supplies.py` | `Supplies` |
| `solvers.py`: `EulerSolver`; all others as arbitrary solver objects | `Solvers`, `Alias` (programs that call the right-hand side) |
| `electric_motors/*`: equations, Jacobians, torque, limits, initial values, `get_state_space` of DC motors | `Motors`, `Limits`, `Init`, `InitialFlux` (induction motors), `StateSpace` |
| `mechanical_loads/*` | `Loads`, `Init` |
| `gym_electric_motor/__init__.py` (registration), `envs/motors.py`, default arguments of the classes in `envs/*`, `limits` and `nominal_state` of the systems | `Registry`, `RegisteredEnv` (wrappers that the classes add) |
| class level data shared by instances | `Sharing` |
| `physical_system_wrappers/*` | `Wrappers`, `Alias` (actions as objects), `WrappedEnv` (`k` and `seed` of wrappers) |
| `reference_generators/*` | `References` |
| `reward_functions/*` | `Reward` |
| `observers/observer.py` | `Observer` |
| `callbacks.py`: `RampingLimitMargin` | `Ramping` |
| `visualization/motor_dashboard.py`, `motor_dashboard_plots/*`, `console_printer.py`: the collected data, not the drawing | `Dashboard` |
| `gem_controllers/stages/*`, `gem_controllers/*.py`, `parameter_reader.py`, `tuner`s | `Control`, `Loop`, `ClosedLoop`, `OperatingPoint`, `EesmTable` |
| `gem_controllers/reference_plotter.py`, plotting options of `GemController.make`, `ElectricMotorEnvironment.sim` | `Plotter` |
| `examples/classic_controllers/controllers/*`: base controllers, current control, cascades, field oriented control (constructors as attribute values), conversion of torques to currents | `Classic`, `ClassicFoc`, `ClassicTorque` |
| `examples/classic_controllers/classic_controllers.py`: `Controller.make` without `stages`, for the registered environments; which exceptions the constructors raise; the loops of the example scripts | `ClassicMake` |
| `examples/model_predictive_controllers/pmsm_mpc_dq_current_control.ipynb`: class `MPC` with the optimiser (GEKKO) as a parameter | `Mpc` |
| `examples/environment_features/GEM_cookbook.ipynb`, `stable_baselines3_*.ipynb`: classes `CurrentVectorProcessor`, `MyConstraint`, `RewardLogger`, `FeatureWrapper`, `LastActionWrapper`; `scim_ideal_grid_simulation.py` without the plot | `Examples` |
| `examples/environment_features/external_speed_profile.py`: the speed profiles (`scipy.signal.sawtooth` after its documentation) | `Profiles` |
| `mechanical_load.py`: boundaries of initial speeds (array branch of `initialize`) | `LoadStart` |
| `examples/classic_controllers`: data of `external_plot.py`, references handed over by `plot_external_data.py` (not labels and axes) | `ExternalPlot` |
| `classic_controllers.py` `reference_states`; `reference_names` of the reference generators (not those of constant ones) | `ReferencedStates` |

## Not modelled

* scipy and numpy themselves: adaptive solvers, interpolation (`scipy.interpolate`) of the EESM tables (a parameter of their selection) and of the tables of
  `torque_control = 'interpolate'`, `np.roots`, the distributions of random numbers (only their range is used), the generators.
* matplotlib, `gem_controllers/block_diagrams`, saving and loading of environments, the helpers of `gymnasium.make`.
* floating point: rounding, overflow, `nan`, `inf` (except where a definition has values for them: `Fl` in `Reward`, `none` for
  the `nan` of a square root in `OperatingPoint`).
* Python's type errors for arguments of undocumented types.

## Where the code does not do what it says

A claim about the code that is false is proved to be false (`..._violated`), mostly for all inputs of a class, not for one
example. The notes in MANIFEST.json give the details; this is the list.

* Environment: plain callables as constraints are dropped (C10); `constraint merge 'product'` raises (C07); a raising reset opens
  the environment (C63); wrappers' generators and the phase of AC supplies
  are not seeded, the positions of interlocked switches survive a seeded reset, a second reset without seed is not reproducible (C04).
* Converters: reset keeps the switching state of half bridges (C19); `tau` set later does not reach bridges (C15, C20); interlocked
  change-overs take effect one interval late (C61); the continuous 4QC with interlocking creates energy (C62).
* Supplies: RC supply with feedback leaves its range (C65); three-phase supply raises with DC and synchronous systems (C71);
  with continuous control sets the supply pays for the coming interval instead of the passed one (C119).
* Solver: substep times beyond the interval (C24); derivatives are overwritten for solvers that keep them, among them
  `solve_ivp` (C99).
* Loads and motors: Ornstein-Uhlenbeck load cannot be constructed (C26); Jacobian of friction at standstill (C27); torque limits too
  small (C29); initial values placed by the order of the dictionary (C30); gaussian initial values do not change (C68); disjoint
  interval (C67); limits not filled as documented (C69); instances share dictionaries, DFIM changes SCIM (C31); announced
  non-negative states become negative (C98); start states of induction motors with flux are left to chance (C120);
  a new reference generator is rewarded for the states of the former one (C121); `control_environment` raises in its first step
  for synchronous motors with finite actions (C122).
* Systems: `reset` wraps the angle once (C33); stale angle in phase or dq quantities, EESM voltages interchanged at reset (C34);
  long dq actions are clipped in abc (C70); EESM systems raise in every step with more than one switching time (C109).
* Wrappers: reset actions reversed, default for multi-discrete spaces (C36); action arrays stored without copy (C101);
  `remove_angle` (C37, C72); current sum (C38); noise on `'all'`, seed (C39); two dead times, slip (C40); flux observer bounds and
  stability (C59).
* References: switched generator's first super-episode is one longer (C44); waveforms cut (C73); Wiener process draws from the old
  generator (C74); reuse gives constant references (C75); `ConstReferenceGenerator.reference_names` is a string (C76).
* Reward: violation reward outside the announced range (C45); soft constraints pay (C46); weights kept on reuse (C77); setter without
  `set_modules` (C78); `gamma = 1` (C79).
* Ramping: unchecked arguments (C47), margin outside the reference space (C80).
* Controllers: squared limit (C48, C82); unclipped voltage returned (C49); PID keeps its last error (C51); first action before reset
  (C83); discrete output of B6/EESM (C52); feedforward of ExtEx, PermEx, EESM, SCIM (C53); fixed `tau` and mechanical speed in the
  abc transformation (C84); tuning (C85); operating points (C54, C56, C86), flux tables of magnet motors
  with rows of other torques (C87), of reluctance motors read at the wrong rows (C88); shared flux controller (C89); first episode of
  the control loop (C57); combinations that cannot be made (C58).
* Operation points of the EESM: no tables for equal inductances, loss that is not the copper loss, no reduction of the torque in
  field weakening (C113).
* Dashboard: C90, C92–C97. Plots of controllers: newest reference 0 (C111), options shared by all controllers or without effect,
  no controllers for environments with a console printer (C112).
* `env.sim` is shared by all environments and does not count steps (C110).
* Rewards of running episodes outside `reward_range` in speed controlled environments (C114).
* `Motor.states` without the supply voltage (C116); default references outside the state space with the load of the docstring or a
  small current limit (C117); states outside the state space, after every reset or in the first step, of all synchronous motors and of
  Finite-CC/TC-SeriesDc (C118).
* The torque leaves the state space in running episodes of Cont-TC/CC-SeriesDc, with rewards below `reward_range` in the former (C123).
* The speed leaves the state space, and the reward `reward_range`, in running episodes of Cont-SC-ExtExDc; the torque leaves the state space
  in running episodes of Cont-TC-ExtExDc and Cont-TC-ShuntDc (C123).
* With `CosSinProcessor(remove_angle=True)` the observation of every reset is shifted (C37, C124).
* Constraints shared by all environments of a class (C100).
* Classic controllers of the examples: `nan` actions for torque 0, actions outside the action space with three-point stages (C125);
  incomplete EMF compensation and decoupling, outer stages that compare with the wrong state, ignored reference of `i_sq` (C127);
  integrators that wind up together with the estimated flux of induction motors (C126);
  no hysteresis in on-off controllers, resets that raise or do nothing (C128); IndexError for torques beyond the table, `nan` currents
  if the largest flux needs too much voltage, conversions that are not reset to their initial state (C130);
  environments without controller, controllers with the gains of another quantity or too few actions (C131); loops that act on an
  outdated observation after a reset (C132); calls with stages raise for shunt motors, and with the designed stages for current control of induction motors (C134).
* `i_sum` of shunt motors leaves the announced range in running episodes (C123).
* The constraint `'all_states'` also watches the sum of the currents that the shunt motor environments add, and ends episodes for it (C133).
* `StateObserver` with state filters, references, before the first step, after a reset (C102).
* Euler solver with external speed loads: more sub-steps make the result worse (C103). Unloaded series motors run away (C105).
* Repeating an action in `k` short steps is not one long step for synchronous motors (C138).
* Examples: with the limits of the predictive controller's notebook only 8/9 of every voltage reach the motor (C143); the current vector processor of the
  cookbook uses `i_sq` twice, its logger starts with `nan` (C144); half the amplitude and shifted times in the grid example (C145); the conversion of the
  cascaded induction motor controller keeps the integrated modulation in a reset (C146);
  the speed profile of the example does not begin at its bias (C148);
  `omega_fixed` is not the speed of a constant speed load with random initial speeds, and an interval above the nominal speed is left without an error (C149);
  external plots show old data at the newest time and, without a reference, the data of other lines; controllers
  with one stage raise in every call if they have a plot for references (C150).
- Examples: no classic controller can be made for nested reference generators that the environment accepts (C151).

## Plan per property

| id | model | proof |
|----|-------|-------|
| C01 | `Env`: step/reset/setters/close over abstract component transition functions that may raise | induction over call lists; refinement to a two-state automaton (ready / needs-reset) |
| C02 | same | case analysis of `step`, equations for flag, reward, callbacks |
| C03 | callbacks as a trace appended by each call | induction; trace equals the spec trace built from the call list |
| C04 | components with RNG; spawn of sub-seeds by position | two runs related by equality after reset, for whole environments by a relation per component (which attributes may differ until the next action); negations for un-reset state and un-seeded draws |
| C05 | filter as index list | pointwise list lemmas, permutation spec |
| C06, C07 | `ConstraintMonitor` | induction over the constraint list; product merge call raises (negation), formula theorem partial |
| C08, C09 | `LimitConstraint`, `SquaredConstraint` with masks / name lists | equivalence with `∃`/`Σ` specification |
| C10 | constructor's filtering of the constraint list | exact characterisation; negation for plain callables |
| C11, C12 | association lists as dictionaries | induction over the dictionary |
| C13 | every converter as a state machine | invariant over histories, per converter then lifted through nesting |
| C14, C15 | two-quadrant switching pattern, nested times | invariant over histories; sorted-dedup-merge lemmas |
| C16–C18, C21 | converter output and supply-current functions | algebra by cases, list induction for multi converters |
| C19, C20 | reset / tau setter | hyperproperty for state without leak, negation with witness for the leak |
| C22 | RC supply with Euler step | invariant by induction over the load sequence |
| C23 | AC supplies over ℝ | trigonometric identities |
| C24 | Euler solver as fold | induction over nsteps; negation for the sub-step times |
| C25, C26 | loads | real analysis by cases |
| C27, C60 | ODE right-hand sides and Jacobians as functions on vectors | `HasDerivAt` for every coordinate |
| C28 | same ODEs | ring identities |
| C29 | torque limits | inequalities; negations where the limit is too small |
| C30, C31 | initialiser dictionaries with order; heap of class attributes | exact characterisation, negations |
| C32, C33, C40 | transforms over ℝ | trigonometry, `toIocMod`-style wrap specification |
| C34, C35 | system simulate/reset with converter, supply, solver as parameters | induction over steps; negations for stale angle and mis-ordered reset |
| C36–C39, C59 | wrappers as state machines | refinement to shifted histories, invariants |
| C41–C44 | reference generators with draws as arguments | invariants by induction |
| C45, C46 | reward | inequalities, geometric series |
| C47 | ramping callback | invariant over events |
| C48–C53, C55, C57 | controllers | invariants, algebra |
| C54, C56 | operation point selection | polynomial identities; negations with rational witnesses |
| C58 | Python argument binding of `tune` calls | finite table, complete |
| C61, C62 | converter histories with interlocking | invariants; general negations |
| C63, C64 | environment with raising modules; seed sequences as paths | traces; injectivity of spawn keys |
| C65, C66, C71 | supplies and systems | inequalities, integrals of sines |
| C67–C69 | initialisers and limits | interval reasoning, dictionary lemmas |
| C70 | dq processors | norms under rotation, clipping |
| C72 | all wrapper stacks | induction over the stack |
| C73–C76, C80, C81 | reference generators, ramping | exact characterisations, negations for whole classes of margins |
| C77–C79 | reward function life cycle | state machine, `Fl` arithmetic |
| C82–C84, C89 | controller stages | algebra, call histories |
| C85 | tuning rules | roots of characteristic polynomials, optimum conditions |
| C86–C88 | operating points | algebra, optimality by inequalities, table lookups |
| C90–C97 | dashboard as a state machine over callbacks | induction over event lists |
| C98 | right-hand sides as differential equations | boundary derivative argument (no uniqueness of solutions needed); single Euler steps and induction over the loop |
| C99 | solvers as programs with handles | induction over programs |
| C100, C101 | shared constraint objects, arrays as references | folds, heaps |
| C102 | state observer | case analysis over the last event |
| C103 | Euler solver against motions of the drives | local error, discrete Gronwall, Lipschitz on bounded sets |
| C104 | energy balances along motions | derivative of the stored energy |
| C105 | boundedness and decay | energy as a Lyapunov function |
| C106 | one motion per drive, loads with or without dependence on time | Picard-Lindelöf for cut right-hand sides, bound by the energy (no damping needed), pieces put together |
| C107 | reset and simulate against the motion under sampled inputs, for converters and supplies described by what they deliver (`Machine`, `Realises`, `Supplies`) | C103 with perturbed start states, inputs as constant states, stages between switching times; feedback Lipschitz at the states where stages begin |
| C108 | integrators of the operation point selection | invariant over all sequences of calls |
| C109 | no exceptions in reset and simulate, length of the states, all converters and systems | invariant (kind of converter, switching states in range, shape of the ODE state) over all sequences of actions |
| C110 | `env.sim` | induction over histories of environments |
| C111, C112 | reference plotter, options of `make` | ring buffer invariant with two writers; case analysis |
| C113 | tables of the EESM | optimality of the first minimum, sorted grids, algebra |
| C114 | `Assembly`: all components in the environment loop | invariant over histories (running system as in C109, usable reference generator), C10, C45 for the results |
| C115, C116 | `Registry`: names, classes, default arguments of the 54 environments | tables checked by the kernel for all 54 motors, then C114 |
| C117 | merging and filling of limits and nominal values, system limits | invariant over `_update_limits`, entry by entry |
| C118 | converters, transformations and limits together | ranges of the converter outputs as invariant over histories, an action for every peak |
| C119 | supply and converter with a notebook each (`spied`), inside the whole system | relation between the two notebooks and the converter state as invariant over histories |
| C120 | initialisation of induction motors with its attributes over several resets | exact condition of acceptance by induction over the resets; angles chosen for both outcomes |
| C121 | `Replacement`: an environment that may get a second generator | the environment with the new generator embedded in it (same answers), then C45 for the rewards |
| C122 | `ClosedLoop`: `control_environment` with exceptions on the environment of `Env`, adapter and cascades | the calls of the loop are a history of proper calls, to which C115 applies; invariants of the integrators; lower ends of the reference spaces |
| C123 | the environments of C115 with an exact solver | invariant of the physical system over histories: Lyapunov functions of the unloaded motor; the current of a series motor at constant speed in closed form, over 300 steps; for externally excited and shunt motors regions that are reached one after the other with chosen actions (energy bound, first-order lags) |
| C124 | `WrappedEnv`: the environment of C114 around any physical system, and the wrappers as changes of such systems | induction over the stack (what is announced, which actions are answered), invariant over histories, then the tables of C115 with more states |
| C125 | `Classic`, `ClassicFoc`: the controllers as functions of stored values, state and reference | case distinction at the clipping; levels of the switching controllers as an invariant |
| C126 | histories of calls and resets | invariant: the integral part is the last unclipped output minus the other parts; voltages in dq coordinates bounded by those of the shifted phases; violation: currents that rotate with the marginally stable eigenvalue of the flux estimation |
| C127 | the motor equations of `Motors` with the voltage of an action inside the limits | algebra; transformations from C32; emfInd of C53 |
| C128 | histories of calls | three-point: the stored state says whether the error was beyond the outer threshold and has not been inside the inner one since; reset commutes with every call |
| C129 | loop of controller and physical system (`turn`), exact solutions of the equations or Euler steps | error and integrator obey a saturated linear recursion (`Proofs/Settling.lean`): the region beyond the line of the slower eigenvector is invariant, so the error changes its sign at most once; monotone limits afterwards |
| C130 | `ClassicTorque`: both conversions as functions of tables, modulation controller and flux controller | lookups of C87, C88; the table of optimal fluxes is bounded by the grid of currents; the bounds discharge the hypotheses of C126 |
| C131 | `ClassicMake`, `Registry`: design, gains and constructors over the default arguments | evaluation for all 54 environments and 18 settings, by the kernel |
| C132 | `ClassicMake.exampleLoop` | induction over the steps |
| C133 | `RegisteredEnv`: the wrapper that the classes of the shunt motors add; `WrappedEnv` | simulation relation between the two environments over histories (system, generator, constraints, reward); two concrete environments for the violation |
| C134 | `ClassicMake.makeGiven` | evaluation for all environments and settings by the kernel; case analysis of the lists of stages |
| C135 | whole systems in pairs; the converters in pairs (`Twin`) | relation between the states of both systems over histories (converter legs permuted, solver state mapped by an affine map that commutes with the right-hand side) |
| C136 | whole systems in pairs, one with the opposite load (`AnyLoad.opposite`) | as C135, with the reflection of phases and dq coordinates resp. signs of both windings as maps; exchange of the two half bridges of four quadrant converters |
| C137 | the classic controllers (`Current`, `Torque`, `Speed` stages with action stage) in front of the whole systems of C136; `selectOnline` for the operation points | relations between the states of two controllers (integrators with signs) kept by every call; composition with the paired systems of C136; for the tables symmetry of `linspace`, `mtpcRow` and of rounding except midway |
| C138 | two whole systems (`simulate`, `reset`) with different sampling times, `Euler.integrate` with any number of intervals, converters without interlocking time | closed form of a step without inner switching times (iterated Euler map), `f^[k·n] = (f^[n])^[k]`, induction over the calls; for synchronous motors two steps computed in general |
| C139 | whole systems (`simulate`, `reset`) with all pasts and futures, `Euler.integrate`, converters without memory (also with open switches) | the observation gives the state of the solver (up to full turns of the rotor, wrapping of the angle); related states go on alike; induction over past and future. Violations: SCIM (flux) by one step in general, interlocking by two concrete runs |
| C140 | two whole systems side by side (`simulate`, `reset`; SCIM/DFIM, shunt/ExtEx, PermEx/ExtEx, SynRM/PMSM), any solver as a parameter | systems whose solvers, converters and reports are related go on together (induction over pieces, switching times and history); a converter beside one that idles has the same switching times; equations of the general motor on the invariant set are those of the special one |
| C141 | two systems with the same parts and different limits (`simulate`, `reset`, `divLimits`) | the limits enter the result of a call in the final division only, never the next state (induction over the history) |
| C142 | three whole systems at constant speed (`simulate`, `reset`; DC, PMSM/SynRM, EESM, SCIM), Euler solver | equations linear in currents and voltages at equal speed and angle; mixtures are preserved by Euler intervals (induction over the intervals and the history); products of currents refute the torque |
| C143 | `Mpc.task`, `Mpc.phases`, `Mpc.control` with any optimiser; PMSM system, Euler solver | line voltages bound the shifted phases; the zero point vanishes in the transformation, the shortening is a factor; angle of the observation up to full turns; limits of the notebook by C69 |
| C144 | `Examples.currentVector`, `myConstraint`, `feature`, `lastAction` around `deadTime`, `Logger.on` on the log of `Core.run` with any modules | both indices equal; angles in [-π, π] have unequal cosine or sine; invariant: deque = last action; the callback's events as notes, episodes by recursion over the caller's view |
| C145 | `Examples.gridVoltage`, `gridRecord` with any system | addition theorems; factor of the bridge by C138; induction over the steps |
| C146 | `Foc.cascaded`, `cascadedFocReset`, `SyncTorque.conversion`, `ImTorque.modulation`, `syncMod`, `imMod`, `gainFoc`, `cmStep` | invariant: gains unchanged, stored error 0 without d part, so that a reset gives the new controller; the flag `limited` has no effect at the reset value; clipping |
| C147 | two whole systems side by side (`simulate`, `reset`; PMSM/SynRM, EESM, SCIM, DFIM, `b6Volt`, `b6Duty`), Euler solver | kernel of `t23`; both histories have the same solver state, by induction; exhaustive comparison of the eight switching states |
| C148 | `Profiles`, `externalOde`, `externalReset` | monotonicity of `(omega - M) exp(t / tau)`; variation of constants and the fundamental theorem for existence; the sawtooth as a minimum of two ramps of the fractional part |
| C149 | `loadBounds`, `Sharing.run`, `drawValues` | every dictionary of every program has the entry omega only; then one draw between the two clipped boundaries |
| C150 | `ExternalPlot` | invariant of the ring buffer (times of the last `w` steps, data of the last `w` rounds); containers written against containers drawn |
| C151 | `ReferencedStates` | mutual induction over the tree of generators and the active sub generators |

## Axioms per theorem

860 theorems are listed in MANIFEST.json (all in the namespace `GEM.Props`).

* `propext`: `c01_rejected_no_effect`, `c04_histories_partial`, `c04_reproducible_partial`, `c04_seed_determines_streams`, `c04_wrapper_unseeded_violated`, `c112_console_violated`, `c112_plot_references_violated`, `c132_partial`, `c132_violated`, `c146_gains`, `c151_nested_violated`, `c36_arrival`, `c43_honest`, `c57_fresh`, `c57_unlimited`, `c58_partial`, `c58_speed_violated`, `c58_threePoint_violated`, `c58_torque_violated`

* `Quot.sound`, `propext`: `c01_allowed_executes`, `c01_executed_needs_reset`, `c02_step`, `c03_numbers`, `c03_protocol`, `c03_step_numbers`, `c05_all`, `c05_names`, `c05_unknown`, `c06_max`, `c06_perm`, `c07_product_violated`, `c08_unknown`, `c09_unknown`, `c100_partial`, `c102_first_violated`, `c102_reset_violated`, `c10_callable_violated`, `c110_partial`, `c110_tau_violated`, `c112_other_violated`, `c112_partial`, `c116_states_partial`, `c116_states_violated`, `c11_accepts`, `c11_last_wins`, `c11_other_inputs`, `c11_rejects`, `c11_slot`, `c11_unnamed`, `c122_trace`, `c125_nan_violated`, `c125_reference`, `c127_outer_violated`, `c128_on_off_violated`, `c128_reset_cascade`, `c128_reset_continuous`, `c128_reset_discrete_partial`, `c128_reset_excited_violated`, `c12_no_copy`, `c12_update`, `c150_action_partial`, `c150_action_violated`, `c151_distinct`, `c151_found_partial`, `c151_names`, `c151_order_partial`, `c16_two`, `c18_cont_iSup`, `c18_convert`, `c18_iSup`, `c19_two_partial`, `c20_elementary_partial`, `c22_no_load`, `c24_nsteps_shifted`, `c24_one_step`, `c24_time`, `c26_ou_violated`, `c31_load_partial`, `c31_poly_violated`, `c31_scim_partial`, `c31_scim_violated`, `c31_supply_partial`, `c31_supply_violated`, `c34_dc`, `c35_euler`, `c35_step`, `c35_time`, `c41_constant`, `c44_episode`, `c44_handover`, `c44_length`, `c44_space`, `c44_switch`, `c47_accepts`, `c47_zero_violated`, `c51_reset_partial`, `c52_output_violated`, `c57_first_violated`, `c57_later`, `c57_steps`, `c57_together`, `c61_changeover_partial`, `c63_completed_reset_partial`, `c64_episodes_distinct`, `c64_streams_distinct`, `c65_ideal_partial`, `c67_mean_zero_violated`, `c76_switch_violated`, `c91_drawn`, `c91_lines`, `c93_last`, `c93_steps`, `c94_lines`, `c94_reward_violated`, `c96_once_partial`, `c96_once_violated`, `c97_action_violated`, `c97_unreferenced_violated`, `two_settled`

* `propext`, `Classical.choice`, `Quot.sound`: the other 741 theorems.
