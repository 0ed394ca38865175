{"id": "C01", "title": "Stepping requires a reset", "statement": "A call of env.step(action) is executed if and only if a reset has been performed since the environment was built, since the last step that reported terminated=True, and since the reference generator or reward function was last replaced; otherwise it raises AssertionError and neither simulates, nor invokes a callback, nor changes anything a later call can observe.", "quantifier": "every finite history of reset / step / replace-reference-generator / replace-reward-function / close calls, every behaviour of the components", "why_tests_cant": "Histories are unbounded and the components are arbitrary; tests sample a few two-call sequences.", "anchors": ["src/gym_electric_motor/core.py:ElectricMotorEnvironment.step", "src/gym_electric_motor/core.py:ElectricMotorEnvironment.reset", "src/gym_electric_motor/core.py:ElectricMotorEnvironment.reference_generator (setter)", "src/gym_electric_motor/core.py:ElectricMotorEnvironment.reward_function (setter)"]}
{"id": "C02", "title": "Termination is exactly the violation threshold", "statement": "The terminated flag returned by env.step is True exactly when the merged violation degree of the state just simulated is at least 1.0, truncated is always False, and reward, callbacks and returned flag of one step all refer to the same simulated state and violation degree.", "quantifier": "every step of every history, every constraint/reward behaviour", "why_tests_cant": "Needs all component behaviours, including degrees arbitrarily close to 1.", "anchors": ["src/gym_electric_motor/core.py:ElectricMotorEnvironment.step"]}
{"id": "C03", "title": "Callback protocol", "statement": "Every registered callback sees exactly one on_reset_begin followed by on_reset_end per reset and exactly one on_step_begin(k) followed by on_step_end(k+1) per executed step, in call order and in registration order, where k is the number of steps executed since the last reset; no callback is invoked by a rejected step.", "quantifier": "every history of API calls, every number of callbacks", "why_tests_cant": "A property of traces of unbounded length.", "anchors": ["src/gym_electric_motor/core.py:ElectricMotorEnvironment._call_callbacks", "src/gym_electric_motor/core.py:ElectricMotorEnvironment.reset", "src/gym_electric_motor/core.py:ElectricMotorEnvironment.step", "src/gym_electric_motor/core.py:Callback"]}
{"id": "C04", "title": "Seeding makes an episode reproducible", "statement": "After env.reset(seed=s) every later observation, reward and termination flag is a function of s and the actions played since, whatever happened before the reset, as long as no further reset happens; a later reset() without a seed may not silently detach the run from s.", "quantifier": "every pair of prior histories, every seed, every action sequence", "why_tests_cant": "Quantifies over pairs of histories (a hyperproperty).", "anchors": ["src/gym_electric_motor/core.py:ElectricMotorEnvironment._seed", "src/gym_electric_motor/random_component.py:RandomComponent", "src/gym_electric_motor/physical_systems/converters.py:FiniteTwoQuadrantConverter.reset"]}
{"id": "C05", "title": "Observation follows the state filter", "statement": "With a state_filter of names the observation contains exactly the named states, in the order of the filter, with state_names, limits, nominal_state, low and high of the observation space permuted in the same way; an unknown name is rejected at construction.", "quantifier": "every list of names (also with repetitions), every state vector", "why_tests_cant": "Arbitrary permutations and name lists.", "anchors": ["src/gym_electric_motor/core.py:ElectricMotorEnvironment.__init__", "src/gym_electric_motor/core.py:ElectricMotorEnvironment.state_names", "src/gym_electric_motor/core.py:ElectricMotorEnvironment.limits"]}
{"id": "C06", "title": "Merged violation with 'max'", "statement": "If every constraint returns a degree in [0,1] the monitor with merge_violations='max' returns a degree in [0,1]; it is 0 iff no constraint is violated, it reaches 1 iff some constraint reaches 1, it does not depend on the order of the constraints, and a monitor without constraints always returns 0.", "quantifier": "every list of constraints and every state", "why_tests_cant": "Unbounded number of constraints, real-valued degrees.", "anchors": ["src/gym_electric_motor/core.py:ConstraintMonitor.__init__", "src/gym_electric_motor/core.py:ConstraintMonitor.check_constraints"]}
{"id": "C07", "title": "Merged violation with 'product'", "statement": "If every constraint returns a degree v_i in [0,1] the monitor with merge_violations='product' returns 1-prod(1-v_i): a degree in [0,1] that reaches 1 iff some constraint reaches 1 and is at least every single degree. (The code at this commit passes the degrees as one list and raises instead.)", "quantifier": "every list of constraints and every state", "why_tests_cant": "Unbounded number of constraints; the property fails on every input, which needs a statement about all inputs.", "anchors": ["src/gym_electric_motor/core.py:ConstraintMonitor.__init__ (product_merge)", "src/gym_electric_motor/core.py:ConstraintMonitor.check_constraints"]}
{"id": "C08", "title": "Limit constraint is exact", "statement": "A LimitConstraint returns 1.0 iff at least one observed normalised state exceeds 1 in absolute value and 0.0 otherwise; states that are not observed never influence it; 'all_states' observes every state and an unknown state name is rejected.", "quantifier": "every state vector and every set of observed names", "why_tests_cant": "Real-valued vectors of any length; boundary |s| = 1.", "anchors": ["src/gym_electric_motor/constraints.py:LimitConstraint.__call__", "src/gym_electric_motor/constraints.py:LimitConstraint.set_modules"]}
{"id": "C09", "title": "Squared constraint is exact", "statement": "A SquaredConstraint returns 1.0 iff the sum of squares of the observed states relative to their limits exceeds 1 and 0.0 otherwise, whether or not the state space of the physical system is normalised.", "quantifier": "every state vector, every set of observed names, every limit vector", "why_tests_cant": "Real-valued, both normalisation cases, any number of states.", "anchors": ["src/gym_electric_motor/constraints.py:SquaredConstraint.__call__", "src/gym_electric_motor/constraints.py:SquaredConstraint.set_modules"]}
{"id": "C10", "title": "Every constraint passed to the environment counts", "statement": "Every element of the constraints argument documented as admissible (state name, Constraint object, callable) takes part in the violation degree of the environment.", "quantifier": "every list of constraints", "why_tests_cant": "Needs all lists; an ignored element is invisible unless it alone is violated.", "anchors": ["src/gym_electric_motor/core.py:ElectricMotorEnvironment.__init__", "src/gym_electric_motor/core.py:ConstraintMonitor"]}
{"id": "C11", "title": "Named state values land in their slot", "statement": "Converting a dictionary / array / list / scalar of state values to a state array puts the value given for a name at the position of that name (names compared case-insensitively on the key side), 0 at every unnamed position, keeps arrays of matching length, broadcasts scalars, and rejects unknown names and arrays of wrong length.", "quantifier": "every dictionary, every list of state names", "why_tests_cant": "Arbitrary dictionaries and names.", "anchors": ["src/gym_electric_motor/utils.py:set_state_array", "src/gym_electric_motor/utils.py:state_dict_to_state_array"]}
{"id": "C12", "title": "Default parameters are updated, never extended or shared", "statement": "update_parameter_dict(default, new) returns a dictionary with exactly the keys of default, the values of new where given and of default elsewhere, rejects unknown keys, and leaves both arguments unchanged.", "quantifier": "every pair of dictionaries", "why_tests_cant": "Arbitrary dictionaries.", "anchors": ["src/gym_electric_motor/utils.py:update_parameter_dict"]}
{"id": "C13", "title": "Converter output stays in its declared voltage range", "statement": "For every converter type, every action sequence (also out-of-range actions of continuous converters), all output currents, times and interlocking times, each component of convert(i_out,t) lies between voltages.low and voltages.high of that converter.", "quantifier": "every history of set_action/convert/reset, every current and time", "why_tests_cant": "Unbounded histories, real inputs, nested converters.", "anchors": ["src/gym_electric_motor/physical_systems/converters.py:FiniteOneQuadrantConverter", "src/gym_electric_motor/physical_systems/converters.py:FiniteTwoQuadrantConverter", "src/gym_electric_motor/physical_systems/converters.py:FiniteFourQuadrantConverter", "src/gym_electric_motor/physical_systems/converters.py:ContOneQuadrantConverter", "src/gym_electric_motor/physical_systems/converters.py:ContTwoQuadrantConverter", "src/gym_electric_motor/physical_systems/converters.py:ContFourQuadrantConverter", "src/gym_electric_motor/physical_systems/converters.py:FiniteB6BridgeConverter", "src/gym_electric_motor/physical_systems/converters.py:ContB6BridgeConverter"]}
{"id": "C14", "title": "No shoot-through", "statement": "With a positive interlocking time a finite two-quadrant half bridge never goes directly from conducting through one switch to conducting through the other: between the two there is an interval of at least the interlocking time in which both switches are open, in every history of actions.", "quantifier": "every history of set_action/convert calls with increasing times, every interlocking time", "why_tests_cant": "A safety property over unbounded histories.", "anchors": ["src/gym_electric_motor/physical_systems/converters.py:FiniteTwoQuadrantConverter.convert", "src/gym_electric_motor/physical_systems/converters.py:FiniteTwoQuadrantConverter._set_switching_pattern"]}
{"id": "C15", "title": "Switching times partition the control interval", "statement": "set_action(action,t) of every converter (also nested ones) returns strictly increasing switching times inside (t, t+tau] whose last element is t+tau, so that a simulation step always covers exactly one sampling interval.", "quantifier": "every converter type and nesting, every action, state, time, interlocking time below tau", "why_tests_cant": "Recursive structures and unbounded histories.", "anchors": ["src/gym_electric_motor/physical_systems/converters.py:FiniteTwoQuadrantConverter._set_switching_pattern", "src/gym_electric_motor/physical_systems/converters.py:FiniteFourQuadrantConverter.set_action", "src/gym_electric_motor/physical_systems/converters.py:FiniteMultiConverter.set_action", "src/gym_electric_motor/physical_systems/converters.py:FiniteB6BridgeConverter.set_action"]}
{"id": "C16", "title": "Ideal converters do not create or destroy power", "statement": "Without interlocking the normalised supply current equals the sum of output voltage times output current over all phases: i_sup = u_out * i_out for the one-, two- and four-quadrant converters (finite and continuous) for every current for which the converter can carry it, and for the B6 bridge up to the star-point term.", "quantifier": "every action and every real output current", "why_tests_cant": "Real-valued currents, sign case distinctions.", "anchors": ["src/gym_electric_motor/physical_systems/converters.py:i_sup methods"]}
{"id": "C17", "title": "Switching commands produce the documented levels", "statement": "Without interlocking delay the four-quadrant converter outputs (0,1,-1,0) for the actions (0,1,2,3) with current-independent levels, the two-quadrant converter outputs 1 and 0 for the actions 1 and 2 and freewheels for 0, and the B6 bridge maps its eight actions one-to-one to the eight sign patterns of (u_a,u_b,u_c) = +-0.5.", "quantifier": "every current, time, previous switching state", "why_tests_cant": "Must hold for every previous state and current.", "anchors": ["src/gym_electric_motor/physical_systems/converters.py:FiniteFourQuadrantConverter", "src/gym_electric_motor/physical_systems/converters.py:FiniteTwoQuadrantConverter", "src/gym_electric_motor/physical_systems/converters.py:FiniteB6BridgeConverter"]}
{"id": "C18", "title": "Multi converters are independent products", "statement": "A multi converter driven with the tuple of sub-actions behaves as its sub-converters driven separately: the output is the concatenation of the sub-outputs for the corresponding slices of i_out, the supply current is the sum, and changing one sub-action never changes another converter's output.", "quantifier": "every list of sub-converters, actions, currents, times", "why_tests_cant": "Unbounded number of sub-converters.", "anchors": ["src/gym_electric_motor/physical_systems/converters.py:FiniteMultiConverter", "src/gym_electric_motor/physical_systems/converters.py:ContMultiConverter"]}
{"id": "C19", "title": "Converter reset forgets the past", "statement": "After converter.reset() the outputs depend only on what happens after the reset.", "quantifier": "every pair of histories before the reset", "why_tests_cant": "A hyperproperty over histories; the leak only shows with interlocking and particular last actions.", "anchors": ["src/gym_electric_motor/physical_systems/converters.py:FiniteTwoQuadrantConverter.reset", "src/gym_electric_motor/physical_systems/converters.py:PowerElectronicConverter.reset"]}
{"id": "C20", "title": "The sampling time given to the system reaches every switch", "statement": "Setting tau on a converter (done by the physical system) makes every contained half bridge schedule its switching with this tau.", "quantifier": "every nesting of converters, every tau", "why_tests_cant": "Only visible with nested converters whose default differs.", "anchors": ["src/gym_electric_motor/physical_systems/converters.py:PowerElectronicConverter.tau", "src/gym_electric_motor/physical_systems/converters.py:FiniteMultiConverter.tau", "src/gym_electric_motor/physical_systems/physical_systems.py:SCMLSystem.__init__"]}
{"id": "C21", "title": "Out-of-range continuous actions saturate", "statement": "A continuous converter given any real action behaves exactly as if given the action clipped to its action space, and inside the action space the averaged output equals the duty cycle when there is no interlocking.", "quantifier": "every real action, current, time", "why_tests_cant": "Real-valued.", "anchors": ["src/gym_electric_motor/physical_systems/converters.py:ContDynamicallyAveragedConverter", "src/gym_electric_motor/physical_systems/converters.py:ContFourQuadrantConverter", "src/gym_electric_motor/physical_systems/converters.py:ContB6BridgeConverter"]}
{"id": "C22", "title": "RC supply stays in its declared range", "statement": "The voltage of the RC supply stays in [0,u_nominal] over every sequence of load currents between 0 and u_nominal/R with time increments up to RC, does not change under u = u_nominal with zero load, and converges monotonically towards u_nominal - R*i for a constant load.", "quantifier": "every current sequence, every sequence of increments, every R,C,u_nominal>0", "why_tests_cant": "Unbounded sequences of reals.", "anchors": ["src/gym_electric_motor/physical_systems/voltage_supplies.py:RCVoltageSupply"]}
{"id": "C23", "title": "AC supplies are bounded, periodic and balanced", "statement": "The single-phase AC supply voltage never exceeds sqrt(2)*u_nominal in absolute value and repeats after 1/f; the three voltages of the three-phase supply sum to zero at all times, never exceed their amplitude and are shifted copies of each other. The reported supply voltage stays inside the declared supply range.", "quantifier": "every time, phase, frequency > 0, nominal voltage", "why_tests_cant": "Real-valued functions of time.", "anchors": ["src/gym_electric_motor/physical_systems/voltage_supplies.py:AC1PhaseSupply", "src/gym_electric_motor/physical_systems/voltage_supplies.py:AC3PhaseSupply"]}
{"id": "C24", "title": "Euler solver advances exactly to the requested time", "statement": "integrate(t) returns the explicit Euler iterate from the current time to t with nsteps equal sub-steps, evaluates the system equation only at times inside the interval, and afterwards reports time t; for constant right-hand sides the result is exact.", "quantifier": "every system equation, every initial value, every interval, every nsteps >= 1", "why_tests_cant": "Arbitrary right-hand sides and step counts.", "anchors": ["src/gym_electric_motor/physical_systems/solvers.py:EulerSolver"]}
{"id": "C25", "title": "Static load torque opposes motion", "statement": "The polynomial load torque is an odd function of speed, never has the sign opposite to the speed (omega*T_L >= 0), is continuous at the switch between static friction and its linear approximation, is monotone in the speed, and is zero at standstill, for non-negative load parameters.", "quantifier": "every speed and all non-negative load parameters", "why_tests_cant": "Real-valued, piecewise definition.", "anchors": ["src/gym_electric_motor/physical_systems/mechanical_loads/polynomial_static_load.py:PolynomialStaticLoad._static_load"]}
{"id": "C26", "title": "Load models move as documented", "statement": "ConstantSpeedLoad keeps the speed exactly constant; ExternalSpeedLoad driven by one Euler step per sampling time lands exactly on the profile value of the next sampling time; the OrnsteinUhlenbeckLoad can be constructed.", "quantifier": "every state, torque, profile, time", "why_tests_cant": "Arbitrary profiles; a constructor that always fails is missed when it is never called.", "anchors": ["src/gym_electric_motor/physical_systems/mechanical_loads/constant_speed_load.py", "src/gym_electric_motor/physical_systems/mechanical_loads/external_speed_load.py", "src/gym_electric_motor/physical_systems/mechanical_loads/ornstein_uhlenbeck_load.py"]}
{"id": "C27", "title": "Jacobians are the derivatives of the motor equations", "statement": "For every motor (DC series/shunt/permanent/external, PMSM, SynRM, EESM, SCIM/DFIM) and the polynomial load, electrical_jacobian / mechanical_jacobian return the exact partial derivatives of the electrical / mechanical ODE and of the torque with respect to state and speed at every state.", "quantifier": "every state, input voltage, speed and motor parameter (non-zero inductances)", "why_tests_cant": "Derivatives at every point of a real vector space.", "anchors": ["src/gym_electric_motor/physical_systems/electric_motors/*.py:electrical_jacobian", "src/gym_electric_motor/physical_systems/mechanical_loads/polynomial_static_load.py:mechanical_jacobian"]}
{"id": "C28", "title": "Motor models conserve energy", "statement": "For every motor the electrical input power equals copper losses plus change of stored field energy plus torque times speed, along the modelled differential equation.", "quantifier": "every state, input voltage, speed and motor parameter", "why_tests_cant": "Identity over all reals.", "anchors": ["src/gym_electric_motor/physical_systems/electric_motors/*.py:electrical_ode", "src/gym_electric_motor/physical_systems/electric_motors/*.py:torque"]}
{"id": "C29", "title": "The torque limit covers all admissible currents", "statement": "If the currents stay inside the current limits of the motor the produced torque does not exceed the torque limit the motor computes for itself.", "quantifier": "every current vector inside the limits, every motor parameter", "why_tests_cant": "Real-valued optimisation problem.", "anchors": ["src/gym_electric_motor/physical_systems/electric_motors/*.py:_torque_limit"]}
{"id": "C30", "title": "Initial values reach the state they are named after", "statement": "A value given for a state in motor_initializer['states'] is the value this state has after reset, independent of the order in which the dictionary was written.", "quantifier": "every initializer dictionary and key order", "why_tests_cant": "Depends on the order of dictionary keys.", "anchors": ["src/gym_electric_motor/physical_systems/electric_motors/electric_motor.py:ElectricMotor.reset", "src/gym_electric_motor/physical_systems/electric_motors/permanent_magnet_synchronous_motor.py:_default_initializer", "src/gym_electric_motor/physical_systems/electric_motors/synchronous_motor.py"]}
{"id": "C31", "title": "Instances do not influence each other", "statement": "Creating and using one load, motor or environment never changes the parameters, limits, initial state or state names of another one or of later created ones.", "quantifier": "every sequence of constructions", "why_tests_cant": "Needs pairs of instances in every order.", "anchors": ["src/gym_electric_motor/physical_systems/mechanical_loads/constant_speed_load.py:ConstantSpeedLoad.__init__", "src/gym_electric_motor/physical_systems/electric_motors/doubly_fed_induction_motor.py:DoublyFedInductionMotor.__init__", "src/gym_electric_motor/core.py:ElectricMotorEnvironment.sim"]}
{"id": "C32", "title": "Coordinate transforms are inverse to each other", "statement": "abc->alpha/beta->dq and back are inverse on zero-sum phase quantities, abc->alpha/beta is a left inverse of alpha/beta->abc, rotations preserve length and compose additively, and the amplitude of a balanced three-phase system equals the length of its dq vector.", "quantifier": "every vector and every angle", "why_tests_cant": "Real-valued trigonometric identities.", "anchors": ["src/gym_electric_motor/physical_systems/electric_motors/three_phase_motor.py:ThreePhaseMotor.t_23", "src/gym_electric_motor/physical_systems/electric_motors/three_phase_motor.py:ThreePhaseMotor.t_32", "src/gym_electric_motor/physical_systems/electric_motors/three_phase_motor.py:ThreePhaseMotor.q", "src/gym_electric_motor/physical_systems/electric_motors/three_phase_motor.py:ThreePhaseMotor.q_inv"]}
{"id": "C33", "title": "Reported angles are wrapped consistently", "statement": "The electrical angle reported by three-phase systems always lies in (-pi,pi] and differs from the integrated angle by a multiple of 2*pi.", "quantifier": "every real angle", "why_tests_cant": "All reals, including boundaries.", "anchors": ["src/gym_electric_motor/physical_systems/physical_systems.py:SynchronousMotorSystem.simulate", "src/gym_electric_motor/physical_systems/physical_systems.py:SynchronousMotorSystem.reset"]}
{"id": "C34", "title": "Reported phase and dq quantities are consistent", "statement": "In the state returned by simulate and by reset the reported i_abc are the inverse transform of the reported i_dq at the reported angle, and every quantity stands at the position of its name.", "quantifier": "every motor state, action, step", "why_tests_cant": "Needs all angles; a stale angle only shows at non-zero speed.", "anchors": ["src/gym_electric_motor/physical_systems/physical_systems.py:SynchronousMotorSystem.simulate", "src/gym_electric_motor/physical_systems/physical_systems.py:ExternallyExcitedSynchronousMotorSystem.simulate", "src/gym_electric_motor/physical_systems/physical_systems.py:ExternallyExcitedSynchronousMotorSystem.reset", "src/gym_electric_motor/physical_systems/physical_systems.py:DoublyFedInductionMotorSystem"]}
{"id": "C35", "title": "Time and step counter", "statement": "After a reset and n simulate calls the step counter is n and the simulation time is n*tau, for every converter with interlocking and every solver that honours its end time, and the returned state is the physical state divided by the limits.", "quantifier": "every n and action sequence", "why_tests_cant": "Induction over steps.", "anchors": ["src/gym_electric_motor/physical_systems/physical_systems.py:SCMLSystem.simulate", "src/gym_electric_motor/physical_systems/physical_systems.py:SCMLSystem.reset"]}
{"id": "C36", "title": "Dead time delays actions by exactly n steps", "statement": "Behind a DeadTimeProcessor(steps=n) the wrapped system receives in step k the action commanded in step k-n, and the n reset actions in order in the first n steps after every reset.", "quantifier": "every n >= 1, every action sequence and every sequence of resets", "why_tests_cant": "Unbounded histories.", "anchors": ["src/gym_electric_motor/physical_system_wrappers/dead_time_processor.py:DeadTimeProcessor"]}
{"id": "C37", "title": "cos/sin augmentation", "statement": "A CosSinProcessor appends cos and sin of the denormalised angle, so that cos^2+sin^2=1 and both stay in [-1,1]; reset and step return vectors of exactly the announced length and order, with and without removing the angle.", "quantifier": "every state vector, both modes", "why_tests_cant": "Real-valued; reset and step paths differ.", "anchors": ["src/gym_electric_motor/physical_system_wrappers/cos_sin_processor.py:CosSinProcessor"]}
{"id": "C38", "title": "Current sum augmentation", "statement": "A CurrentSumProcessor appends the sum of the selected currents normalised such that it stays in [-1,1] whenever all selected currents respect their limits and limit='sum', and its value times its announced limit equals the sum of the physical currents.", "quantifier": "every selection of currents, limits, states", "why_tests_cant": "Real-valued with unbounded number of currents.", "anchors": ["src/gym_electric_motor/physical_system_wrappers/current_sum_processor.py:CurrentSumProcessor"]}
{"id": "C39", "title": "State noise touches only the selected states", "statement": "A StateNoiseProcessor adds one noise sample to every selected state and leaves the others unchanged, never reads outside its noise buffer and uses every sample once, over every number of steps and resets; states='all' selects every state; equal seeds give equal noise.", "quantifier": "every selection, every buffer length, every number of steps and resets", "why_tests_cant": "Unbounded histories with buffer refills.", "anchors": ["src/gym_electric_motor/physical_system_wrappers/state_noise_processor.py:StateNoiseProcessor", "src/gym_electric_motor/physical_system_wrappers/physical_system_wrapper.py:PhysicalSystemWrapper.seed"]}
{"id": "C40", "title": "dq actions are applied at the advanced angle", "statement": "The abc voltages a DqToAbcActionProcessor hands to the system are balanced (zero sum) and, transformed back at the angle advanced by (0.5 + dead-time steps)*tau*p*omega, equal the dq action of the user.", "quantifier": "every action, angle, speed, dead time", "why_tests_cant": "Trigonometric identity for all reals.", "anchors": ["src/gym_electric_motor/physical_system_wrappers/dq_to_abc_action_processor.py:DqToAbcActionProcessor"]}
{"id": "C41", "title": "References stay inside the announced margins", "statement": "Every value of every sub-episode generated by the Wiener, Laplace, sinusoidal, triangular, sawtooth and step reference generators lies inside the limit margin, hence inside the reference space, for every outcome of the random draws.", "quantifier": "every random outcome, margin, previous reference, episode length", "why_tests_cant": "All random outcomes.", "anchors": ["src/gym_electric_motor/reference_generators/wiener_process_reference_generator.py", "src/gym_electric_motor/reference_generators/laplace_process_reference_generator.py", "src/gym_electric_motor/reference_generators/sinusoidal_reference_generator.py", "src/gym_electric_motor/reference_generators/triangle_reference_generator.py", "src/gym_electric_motor/reference_generators/sawtooth_reference_generator.py", "src/gym_electric_motor/reference_generators/step_reference_generator.py"]}
{"id": "C42", "title": "Sub-episodes never run out", "statement": "A sub-episoded generator never reads outside its current reference trajectory, starts a new sub-episode exactly when the current one is used up, and the reference observed at step k is the reference the reward uses at step k+1.", "quantifier": "every sequence of observations and resets, every sequence of drawn episode lengths >= 1", "why_tests_cant": "Unbounded histories with random lengths.", "anchors": ["src/gym_electric_motor/reference_generators/subepisoded_reference_generator.py:SubepisodedReferenceGenerator"]}
{"id": "C43", "title": "Combining reference generators", "statement": "A MultipleReferenceGenerator referencing pairwise disjoint states returns the superposition of its generators: each referenced state carries the value of its own generator, all others are zero; overlapping generators are rejected; the reference observation is the concatenation in order.", "quantifier": "every list of generators and states", "why_tests_cant": "Unbounded number of generators.", "anchors": ["src/gym_electric_motor/reference_generators/multiple_reference_generator.py:MultipleReferenceGenerator"]}
{"id": "C44", "title": "Switching between reference generators", "statement": "A SwitchedReferenceGenerator uses one sub-generator per super-episode; it always answers from the generator selected last, changes it only when the drawn super-episode length is used up, and resets the new generator with the last reference of the old one.", "quantifier": "every sequence of calls and draws", "why_tests_cant": "Unbounded histories.", "anchors": ["src/gym_electric_motor/reference_generators/switched_reference_generator.py:SwitchedReferenceGenerator"]}
{"id": "C45", "title": "The weighted-sum reward stays in the announced range", "statement": "For states inside the state space, references inside the reference space and violation degree 0 the reward lies in reward_range; the maximum is reached exactly at zero error in all weighted states; normed rewards span at most 1.", "quantifier": "every state, reference, weight vector, power", "why_tests_cant": "Real-valued with unbounded dimension.", "anchors": ["src/gym_electric_motor/reward_functions/weighted_sum_of_errors.py:WeightedSumOfErrors"]}
{"id": "C46", "title": "Violating a constraint never pays", "statement": "With violation_reward left at its default the reward of a terminal violation is not larger than any discounted future return the agent could collect by not violating, and the reward is monotonically decreasing in the violation degree.", "quantifier": "every gamma in [0,1), reward range, violation degree", "why_tests_cant": "Infinite sums and real parameters.", "anchors": ["src/gym_electric_motor/reward_functions/weighted_sum_of_errors.py:WeightedSumOfErrors.set_modules", "src/gym_electric_motor/reward_functions/weighted_sum_of_errors.py:WeightedSumOfErrors.reward"]}
{"id": "C47", "title": "Ramping of the limit margin", "statement": "RampingLimitMargin only ever widens the margin of its generators, never beyond maximum_limit_margin, changes it only at multiples of update_freq of the configured event (steps or episodes) and reaches the maximum after finitely many updates.", "quantifier": "every sequence of callback events", "why_tests_cant": "Unbounded histories.", "anchors": ["src/gym_electric_motor/callbacks.py:RampingLimitMargin"]}
{"id": "C48", "title": "Clipping stages respect the limit", "statement": "The reference returned by the absolute clipping stage lies in its action range and equals the input when that was admissible; the reference returned by the squared clipping stage has relative length at most 1-margin.", "quantifier": "every reference vector, limits, margin in [0,1)", "why_tests_cant": "Real vectors.", "anchors": ["src/gem_controllers/stages/clipping_stages/absolute_clipping_stage.py", "src/gem_controllers/stages/clipping_stages/squared_clipping_stage.py", "src/gem_controllers/stages/clipping_stages/combined_clipping_stage.py"]}
{"id": "C49", "title": "Controller voltages respect the action range", "statement": "The voltage set point the current controller hands to its output stage lies inside the voltage range it was tuned for.", "quantifier": "every controller history, state and reference", "why_tests_cant": "All histories; violated only when clipping is active.", "anchors": ["src/gem_controllers/pi_current_controller.py:PICurrentController.current_control"]}
{"id": "C50", "title": "Anti-windup", "statement": "The integrator of a PI controlled quantity changes by tau*error in steps in which its output was not clipped and not at all in steps in which it was clipped; so the integrator is always tau times the sum of the errors of the unclipped steps since reset.", "quantifier": "every sequence of states and references", "why_tests_cant": "Induction over unbounded histories.", "anchors": ["src/gem_controllers/stages/anti_windup.py:AntiWindup", "src/gem_controllers/pi_current_controller.py", "src/gem_controllers/pi_speed_controller.py", "src/gem_controllers/stages/base_controllers/pi_controller.py"]}
{"id": "C51", "title": "Controller reset forgets the past", "statement": "After reset the output of each base controller (P, I, PI, PID) depends only on inputs received after the reset.", "quantifier": "every pair of histories before the reset", "why_tests_cant": "Hyperproperty.", "anchors": ["src/gem_controllers/stages/base_controllers/i_controller.py:IController.reset", "src/gem_controllers/stages/base_controllers/pid_controller.py:PIDController"]}
{"id": "C52", "title": "Three-point control and discrete output", "statement": "A three-point controller outputs the low/high/idle action exactly when the state is above / below / inside the hysteresis band around the reference; the discrete output stage always produces actions contained in the action space of the converter.", "quantifier": "every state, reference and non-negative hysteresis", "why_tests_cant": "Real-valued boundaries.", "anchors": ["src/gem_controllers/stages/base_controllers/three_point_controller.py", "src/gem_controllers/stages/disc_output_stage.py:DiscOutputStage"]}
{"id": "C53", "title": "EMF feedforward decouples the axes", "statement": "With decoupling enabled and the voltage applied unclipped, the current dynamics of each controlled axis become speed-independent: L*di/dt = u_controller - R*i, for every motor type that offers decoupling.", "quantifier": "every state, speed, controller output, motor parameter", "why_tests_cant": "Algebraic identity over all reals.", "anchors": ["src/gem_controllers/stages/emf_feedforward.py:EMFFeedforward", "src/gem_controllers/stages/emf_feedforward_eesm.py", "src/gem_controllers/parameter_reader.py:p_reader", "src/gem_controllers/parameter_reader.py:l_emf_reader"]}
{"id": "C54", "title": "Analytical operating point of synchronous machines", "statement": "The currents (i_d,i_q) the analytical operation point selection computes for a torque T and flux psi produce exactly the torque T and the flux linkage psi.", "quantifier": "every torque, flux, motor parameter and real root selected", "why_tests_cant": "Fourth-degree polynomial identity over all parameters.", "anchors": ["src/gem_controllers/stages/operation_point_selection/pmsm_ops.py:solve_analytical", "src/gem_controllers/stages/operation_point_selection/eesm_ops.py:solve_analytical"]}
{"id": "C55", "title": "Induction motor current reference respects the current limit", "statement": "The current reference of the SCIM operation point selection always satisfies i_sd^2+i_sq^2 <= i_limit^2, and the flux set point of the modulation controller stays within [psi_max+psi_low, psi_max+psi_high].", "quantifier": "every state, reference, controller history", "why_tests_cant": "Unbounded histories, real inputs.", "anchors": ["src/gem_controllers/stages/operation_point_selection/scim_ops.py:_select_operating_point", "src/gem_controllers/stages/operation_point_selection/foc_operation_point_selection.py:modulation_control"]}
{"id": "C56", "title": "Loss-optimal flux table", "statement": "Each row of the optimal-flux table of the SCIM (t, psi, i_sd, i_sq) is an operating point that really produces torque t with minimal losses among the sampled i_sd values.", "quantifier": "every table size and motor parameter", "why_tests_cant": "All table sizes and parameters.", "anchors": ["src/gem_controllers/stages/operation_point_selection/scim_ops.py:_psi_opt"]}
{"id": "C57", "title": "Episode length limit of control_environment", "statement": "controller.control_environment(env, n, max_episode_length=m) never lets an episode run for more than m steps and resets controller and environment together.", "quantifier": "every n, m and every termination pattern of the environment", "why_tests_cant": "All termination patterns.", "anchors": ["src/gem_controllers/gem_controller.py:GemController.control_environment"]}
{"id": "C58", "title": "Every documented base controller can be used", "statement": "GemController.make accepts each documented choice of base_current_controller and base_speed_controller ('PI','PID','P','ThreePoint').", "quantifier": "every combination of control task and base controller", "why_tests_cant": "Finite but untested combinations; failing is independent of all parameters.", "anchors": ["src/gem_controllers/gem_controller.py:GemController.make", "src/gem_controllers/stages/base_controllers/*.py:tune"]}
{"id": "C59", "title": "Flux observer integrates the rotor flux model", "statement": "The flux observer of the induction machine reports |psi| >= 0 and an angle in (-pi,pi], starts from zero at reset, and its update is the explicit Euler step of the rotor flux equation, whatever the history.", "quantifier": "every sequence of currents and speeds", "why_tests_cant": "Unbounded histories of complex numbers.", "anchors": ["src/gym_electric_motor/physical_system_wrappers/flux_observer.py:FluxObserver"]}
{"id": "C60", "title": "System right-hand side and Jacobian are consistent", "statement": "The system equation combines load and motor without mixing their states, and the assembled system Jacobian is the derivative of the assembled system equation.", "quantifier": "every state, torque, voltage; every motor and load whose own Jacobians are right", "why_tests_cant": "Derivative of a composed vector field.", "anchors": ["src/gym_electric_motor/physical_systems/physical_systems.py:SCMLSystem._system_equation", "src/gym_electric_motor/physical_systems/physical_systems.py:SCMLSystem._system_jacobian"]}
{"id": "C61", "title": "A commanded change-over takes effect inside the control interval", "statement": "When the physical system drives a finite converter with interlocking, a change-over from one switch to the other leaves both switches open only for the announced interlocking time; for the rest of the control interval the commanded switch conducts.", "quantifier": "every half-bridge state, action, interlocking time and sampling time", "why_tests_cant": "it concerns the interplay of the times at which the system calls convert with the times the converter compares against, for all values of both; the unit tests of the converter call convert at other times than the system does", "anchors": ["src/gym_electric_motor/physical_systems/converters.py:FiniteTwoQuadrantConverter.convert", "src/gym_electric_motor/physical_systems/physical_systems.py:SCMLSystem.simulate"]}
{"id": "C62", "title": "Interlocking never creates energy", "statement": "For every duty cycle, output current and interlocking time below the sampling time, the power an averaged converter delivers to the load (plus the star-point term of the B6 bridge) is at most the power it draws from the supply.", "quantifier": "every action history, every current, every interlocking time up to the sampling time", "why_tests_cant": "an inequality over a continuum of duty cycles, currents and interlocking times", "anchors": ["src/gym_electric_motor/physical_systems/converters.py:ContTwoQuadrantConverter", "src/gym_electric_motor/physical_systems/converters.py:ContFourQuadrantConverter", "src/gym_electric_motor/physical_systems/converters.py:ContB6BridgeConverter"]}
{"id": "C63", "title": "A failed reset does not open the environment", "statement": "If env.reset raises, the environment stays closed: the next step is rejected until a reset has completed. (The code clears the flag before the physical system is reset, so a step after a failed reset is executed.)", "quantifier": "every history of API calls, every behaviour of the modules, including raising ones", "why_tests_cant": "Requires every crash point of reset.", "anchors": ["src/gym_electric_motor/core.py:ElectricMotorEnvironment.reset", "src/gym_electric_motor/core.py:ElectricMotorEnvironment.step"]}
{"id": "C64", "title": "Random components never share a stream", "statement": "After env.reset(seed=s) no two random components (physical system, its motor and load, reference generators, sub-generators, callbacks) draw from the same random stream, and no component uses the same stream in two consecutive episodes of one seeding.", "quantifier": "every tree of modules, every seed, every number of episodes", "why_tests_cant": "Collisions of spawn keys in arbitrary trees cannot be enumerated.", "anchors": ["src/gym_electric_motor/core.py:ElectricMotorEnvironment._seed", "src/gym_electric_motor/random_component.py:RandomComponent", "src/gym_electric_motor/physical_systems/physical_systems.py:SCMLSystem.seed", "src/gym_electric_motor/reference_generators/multiple_reference_generator.py:MultipleReferenceGenerator.seed"]}
{"id": "C65", "title": "Reported supply voltage stays in the declared supply range", "statement": "Every voltage supply only reports voltages inside its declared supply range, whatever current the motor draws or feeds back.", "quantifier": "every supply class, every sequence of times and currents, including regenerative currents", "why_tests_cant": "Unbounded sequences of reals; regenerative operation has to be reached.", "anchors": ["src/gym_electric_motor/physical_systems/voltage_supplies.py:RCVoltageSupply", "src/gym_electric_motor/physical_systems/voltage_supplies.py:AC1PhaseSupply", "src/gym_electric_motor/physical_systems/voltage_supplies.py:AC3PhaseSupply", "src/gym_electric_motor/physical_systems/voltage_supplies.py:IdealVoltageSupply"]}
{"id": "C66", "title": "u_nominal is the effective value of AC supplies", "statement": "The root mean square over one period of the single-phase voltage, and of the voltage between two phases of the three-phase supply, is u_nominal, as documented.", "quantifier": "every nominal voltage, frequency > 0, phase", "why_tests_cant": "Integral over a continuum.", "anchors": ["src/gym_electric_motor/physical_systems/voltage_supplies.py:AC1PhaseSupply.__init__", "src/gym_electric_motor/physical_systems/voltage_supplies.py:AC3PhaseSupply.__init__"]}
{"id": "C67", "title": "Random initial values lie in the requested interval", "statement": "With random_init='uniform' or 'gaussian' every initial motor state lies in the given interval and in the nominal range of that state; a given mean is the mean of the distribution.", "quantifier": "every initializer (interval, random_params), every nominal value, every number of episodes, every random draw", "why_tests_cant": "Quantifies over random draws and over all intervals, including those that do not overlap the nominal range.", "anchors": ["src/gym_electric_motor/physical_systems/electric_motors/electric_motor.py:ElectricMotor.initialize"]}
{"id": "C68", "title": "Every episode draws new initial values", "statement": "With random initialisation every episode starts at freshly drawn values: two episodes agree only if the random numbers do.", "quantifier": "every initializer, every number of episodes, every random generator", "why_tests_cant": "A statement over sequences of episodes and all outcomes of a random generator.", "anchors": ["src/gym_electric_motor/physical_systems/electric_motors/electric_motor.py:ElectricMotor.initialize", "src/gym_electric_motor/physical_systems/electric_motors/electric_motor.py:ElectricMotor.reset"]}
{"id": "C69", "title": "Limits and nominal values follow the documented rules", "statement": "Every non-zero limit or nominal value given by the user is kept. Specific entries (i_sd, i_a, u_a, ...) that are not given follow the general entries i and u, missing entries are filled with physical maxima, nominal values that are not given equal the limits, and documented entries can be given.", "quantifier": "every motor class, every pair of user dictionaries for limits and nominal values, all motor parameters", "why_tests_cant": "Quantifies over all dictionaries and values; the filling rules interact (order of filling, zero as 'not given').", "anchors": ["src/gym_electric_motor/physical_systems/electric_motors/electric_motor.py:ElectricMotor._update_limits", "src/gym_electric_motor/physical_systems/electric_motors/synchronous_motor.py:SynchronousMotor._update_limits", "src/gym_electric_motor/physical_systems/electric_motors/dc_motor.py:DcMotor._update_limits"]}
{"id": "C70", "title": "dq control applies the requested voltage", "statement": "With control_space='dq', a continuous B6 bridge without interlocking and a supply of constant voltage u, an action (d,q) of the action space puts the voltage u/2*(d,q) on the machine in the dq frame, at every rotor (or flux) angle, and reports it as u_sd, u_sq.", "quantifier": "every angle, action, motor state, supply voltage", "why_tests_cant": "All angles; clipping in single phases only shows at particular combinations of action and angle.", "anchors": ["src/gym_electric_motor/physical_systems/physical_systems.py:SynchronousMotorSystem.simulate", "src/gym_electric_motor/physical_systems/physical_systems.py:SquirrelCageInductionMotorSystem.simulate", "src/gym_electric_motor/physical_systems/converters.py:ContB6BridgeConverter"]}
{"id": "C71", "title": "Every supply works with every system", "statement": "Every voltage supply of the package can be combined with every motor system: reset and simulate return a state with one entry per state name, and the reported supply voltage lies in the interval the state space declares for it.", "quantifier": "every system, supply, state", "why_tests_cant": "Combinations of components and all times.", "anchors": ["src/gym_electric_motor/physical_systems/physical_systems.py:SCMLSystem.simulate", "src/gym_electric_motor/physical_systems/physical_systems.py:SynchronousMotorSystem._build_state_space", "src/gym_electric_motor/physical_systems/voltage_supplies.py:AC3PhaseSupply"]}
{"id": "C72", "title": "Wrapped systems fit their announcements", "statement": "A physical system wrapped by any stack of the package's wrappers announces one limit, one nominal value and one pair of bounds per state name, its state_positions lead to the names, and reset and simulate return vectors of exactly that length, provided the innermost system does.", "quantifier": "every stack (any order and number of wrappers), every history of calls", "why_tests_cant": "Unbounded nesting of wrappers, each with its own bookkeeping.", "anchors": ["src/gym_electric_motor/physical_system_wrappers/physical_system_wrapper.py:PhysicalSystemWrapper", "src/gym_electric_motor/physical_system_wrappers/cos_sin_processor.py:CosSinProcessor", "src/gym_electric_motor/physical_system_wrappers/current_sum_processor.py:CurrentSumProcessor", "src/gym_electric_motor/physical_system_wrappers/flux_observer.py:FluxObserver"]}
{"id": "C73", "title": "Waveforms are not cut by the margin", "statement": "The sinusoidal, sawtooth, triangular and step generators announce a waveform with random amplitude and offset inside the margin: every sub-episode is offset + amplitude * waveform, without clipped sections, for every margin and every amplitude and offset range.", "quantifier": "every margin, range, random outcome and length", "why_tests_cant": "Real-valued ranges and all random outcomes.", "anchors": ["src/gym_electric_motor/reference_generators/sinusoidal_reference_generator.py:SinusoidalReferenceGenerator._reset_reference", "src/gym_electric_motor/reference_generators/step_reference_generator.py:StepReferenceGenerator._reset_reference"]}
{"id": "C74", "title": "References of an episode do not depend on earlier episodes", "statement": "After seeding, the references of the n-th episode are the same no matter how long the previous episodes have been (documentation of RandomComponent).", "quantifier": "every pair of histories with the same number of resets", "why_tests_cant": "Quantifies over pairs of unbounded histories.", "anchors": ["src/gym_electric_motor/random_component.py:RandomComponent", "src/gym_electric_motor/reference_generators/wiener_process_reference_generator.py:WienerProcessReferenceGenerator.reset"]}
{"id": "C75", "title": "A reference generator can be used again", "statement": "Handing the same reference generator to a second environment (set_modules is called again) gives the same limit margin and reference space as the first time; the documented widest margin (-1, 1) gives the widest reference space.", "quantifier": "every margin argument, nominal value and limit", "why_tests_cant": "All margins.", "anchors": ["src/gym_electric_motor/reference_generators/subepisoded_reference_generator.py:SubepisodedReferenceGenerator.set_modules"]}
{"id": "C76", "title": "Reference names match the reference observation", "statement": "reference_names contains one name per entry of the reference observation, in order, for every generator and every combination of generators; generators for the same state can be switched.", "quantifier": "every list of generators", "why_tests_cant": "Unbounded number and nesting of generators.", "anchors": ["src/gym_electric_motor/core.py:ReferenceGenerator.reference_names", "src/gym_electric_motor/reference_generators/const_reference_generator.py:ConstReferenceGenerator", "src/gym_electric_motor/reference_generators/multiple_reference_generator.py:MultipleReferenceGenerator"]}
{"id": "C77", "title": "A reward function can be used for another environment", "statement": "A WeightedSumOfErrors object that was used in one environment and is then passed to another one rewards the second environment by the second environment's own references: with weights left at their default the states referenced there count.", "quantifier": "every pair of systems and reference generators, every argument", "why_tests_cant": "Statement over all pairs of environments and arguments; the object silently keeps what it derived for the first.", "anchors": ["src/gym_electric_motor/reward_functions/weighted_sum_of_errors.py:WeightedSumOfErrors.set_modules"]}
{"id": "C78", "title": "Replacing the reward function of an environment", "statement": "After env.reward_function = f and the required env.reset(), env.step works and returns rewards of f.", "quantifier": "every environment, every new reward function, every action", "why_tests_cant": "All environments, modules and histories.", "anchors": ["src/gym_electric_motor/core.py:ElectricMotorEnvironment.reward_function", "src/gym_electric_motor/reward_functions/weighted_sum_of_errors.py:WeightedSumOfErrors.reward"]}
{"id": "C79", "title": "Every documented discount factor can be used", "statement": "For every gamma in [0, 1] (both ends are documented) the reward function can be set up and all rewards are numbers.", "quantifier": "every gamma, weight vector, state and reference", "why_tests_cant": "Only the single boundary value fails, for every system.", "anchors": ["src/gym_electric_motor/reward_functions/weighted_sum_of_errors.py:WeightedSumOfErrors.set_modules"]}
{"id": "C80", "title": "Ramped references stay in the reference space", "statement": "With a RampingLimitMargin callback every reference observation lies in the reference space the environment announced.", "quantifier": "every history of calls and callback events, every outcome of the random draws, every margin and step size", "why_tests_cant": "Unbounded histories and random draws.", "anchors": ["src/gym_electric_motor/callbacks.py:RampingLimitMargin", "src/gym_electric_motor/reference_generators/subepisoded_reference_generator.py:SubepisodedReferenceGenerator.set_modules"]}
{"id": "C81", "title": "Random walk references continue", "statement": "A sub-episode of a Wiener or Laplace reference starts from the reference value the previous sub-episode ended with; each of its values is the previous one plus one increment of the noise, saturated at the limit margin, and the scale of the noise lies in sigma_range.", "quantifier": "every sigma_range with positive bounds, margin, start value, length and every outcome of the draws", "why_tests_cant": "All random outcomes and lengths.", "anchors": ["src/gym_electric_motor/reference_generators/wiener_process_reference_generator.py:WienerProcessReferenceGenerator._reset_reference", "src/gym_electric_motor/reference_generators/laplace_process_reference_generator.py:LaplaceProcessReferenceGenerator._reset_reference"]}
{"id": "C82", "title": "Clipping shortens a vector only as far as needed", "statement": "When the squared clipping stage has to shorten a set voltage or current, the returned vector keeps the direction and has exactly the admissible length (1 - margin times the limit); a vector that is short enough is returned unchanged.", "quantifier": "every reference vector, limit and margin", "why_tests_cant": "All real vectors and limits.", "anchors": ["src/gem_controllers/stages/clipping_stages/squared_clipping_stage.py:SquaredClippingStage.__call__"]}
{"id": "C83", "title": "A new controller is usable at once", "statement": "A base controller or cascade that has been constructed and tuned can be called before its first reset, for any number of controlled states.", "quantifier": "every kind of base controller, number of states, gains, state and reference", "why_tests_cant": "All dimensions and inputs.", "anchors": ["src/gem_controllers/stages/base_controllers/i_controller.py:IController.__init__", "src/gem_controllers/stages/base_controllers/pi_controller.py:PIController"]}
{"id": "C84", "title": "Phase voltages match the set voltage in the middle of the sampling interval", "statement": "The phase voltages a controller asks for appear, seen from the rotor (or flux) in the middle of the interval in which they are applied, as the direct and quadrature voltages that were set; amplitude and zero sum are kept.", "quantifier": "every angle, speed, sampling time, number of pole pairs, dead time, set voltage", "why_tests_cant": "All real angles and speeds; the error depends on a sampling time and a pole pair number tests rarely vary.", "anchors": ["src/gem_controllers/stages/abc_transformation.py:AbcTransformation"]}
{"id": "C86", "title": "The currents set for a torque produce this torque", "statement": "With the currents that the operation point selection sets for a torque (the measured exciting current or rotor flux given) the motor produces exactly this torque; for the externally excited motor the two set currents have the smallest losses of all pairs with this torque; limits of the voltage are respected.", "quantifier": "every torque, current, flux, motor parameters", "why_tests_cant": "Real inputs and parameters; optimality quantifies over all other pairs of currents.", "anchors": ["src/gem_controllers/stages/operation_point_selection/series_dc_ops.py:SeriesDcOperationPointSelection", "src/gem_controllers/stages/operation_point_selection/shunt_dc_ops.py:ShuntDcOperationPointSelection", "src/gem_controllers/stages/operation_point_selection/extex_dc_ttc.py:ExtExDcOperationPointSelection", "src/gem_controllers/stages/operation_point_selection/permex_dc_ops.py:PermExDcOperationPointSelection", "src/gem_controllers/stages/operation_point_selection/scim_ops.py:SCIMOperationPointSelection"]}
{"id": "C87", "title": "Tables of the synchronous motors are optimal and have the right direction", "statement": "A row of the table 'maximum torque per current' produces its torque with the smallest current of the sampled pairs; a row of the table 'maximum torque per flux' has its flux and the largest torque with it; the online selection returns currents that produce the wanted torque.", "quantifier": "every torque, flux, motor parameters, grid", "why_tests_cant": "Optimality over all alternatives, all signs of the saliency.", "anchors": ["src/gem_controllers/stages/operation_point_selection/pmsm_ops.py:PMSMOperationPointSelection"]}
{"id": "C88", "title": "Tables are read at the row of the wanted value", "statement": "Every lookup of the operation point selection finds a row, and it is the row whose torque (flux) is nearest to the wanted one.", "quantifier": "every torque, flux and table size", "why_tests_cant": "Rounding and end points for all sizes and values.", "anchors": ["src/gem_controllers/stages/operation_point_selection/pmsm_ops.py:_get_t_idx_mtpc", "src/gem_controllers/stages/operation_point_selection/scim_ops.py:_get_psi_opt", "src/gem_controllers/stages/operation_point_selection/scim_ops.py:_get_t_max", "src/gem_controllers/stages/operation_point_selection/pmsm_ops.py:_get_psi_idx_mtpf"]}
{"id": "C89", "title": "Controllers are independent of each other", "statement": "Tuning, resetting or calling one controller does not change what another controller for another environment returns.", "quantifier": "every pair of controllers, every operation", "why_tests_cant": "Needs the states and operations of both to be arbitrary.", "anchors": ["src/gem_controllers/stages/operation_point_selection/scim_ops.py:SCIMOperationPointSelection.__init__"]}
{"id": "C85", "title": "The tuned loops are stable and optimal", "statement": "A PI current or speed controller tuned with design parameter a > 1 gives, with the lag it was tuned for, a closed loop all of whose modes decay, and it has amplification 1 at the geometric mean of its corner frequencies, as the documented symmetrical optimum demands.", "quantifier": "every inductance or inertia, sampling time, resistance and design parameter, every axis", "why_tests_cant": "Stability is a statement about all complex roots of the characteristic equation for all parameters.", "anchors": ["src/gem_controllers/stages/base_controllers/pi_controller.py:PIController._tune_current_controller", "src/gem_controllers/stages/base_controllers/pi_controller.py:PIController._tune_speed_controller", "src/gem_controllers/parameter_reader.py:l_reader"]}
{"id": "C90", "title": "Time plots show the last steps", "statement": "A rendered time plot shows exactly the last w steps since reset_data (or the start): the state in its own unit at the time it was reached, its reference, or the action or reward at the time of the step; regardless of resets and of how often it was rendered.", "quantifier": "every sequence of steps, resets, renderings, every width and period", "why_tests_cant": "The ring buffer, its gap and the shifting of the time axis interact over unboundedly many steps.", "anchors": ["src/gym_electric_motor/visualization/motor_dashboard_plots/base_plots.py:TimePlot", "src/gym_electric_motor/visualization/motor_dashboard_plots/state_plot.py:StatePlot", "src/gym_electric_motor/visualization/motor_dashboard_plots/action_plot.py:ActionPlot", "src/gym_electric_motor/visualization/motor_dashboard_plots/reward_plot.py:RewardPlot"]}
{"id": "C91", "title": "Every reset gets one vertical line", "statement": "In a time plot every reset except the first gets exactly one vertical line at its time: red if a limit violation ended the episode, blue otherwise; each is drawn once.", "quantifier": "every sequence of steps, resets and renderings", "why_tests_cant": "Needs all interleavings of resets, violations and renderings.", "anchors": ["src/gym_electric_motor/visualization/motor_dashboard_plots/base_plots.py:TimePlot.on_reset_begin", "src/gym_electric_motor/visualization/motor_dashboard_plots/base_plots.py:TimePlot.render"]}
{"id": "C92", "title": "Episode plots show every finished episode", "statement": "The plot of the episode lengths (mean rewards) shows one point per finished episode, with its number and its length (mean reward); resetting never raises.", "quantifier": "every sequence of episodes, including empty ones, every moment the figure is made", "why_tests_cant": "Unboundedly many episodes of arbitrary length.", "anchors": ["src/gym_electric_motor/visualization/motor_dashboard_plots/base_plots.py:EpisodePlot", "src/gym_electric_motor/visualization/motor_dashboard_plots/episode_length_plot.py:EpisodeLengthPlot", "src/gym_electric_motor/visualization/motor_dashboard_plots/mean_episode_reward_plot.py:MeanEpisodeRewardPlot"]}
{"id": "C93", "title": "The violation plot counts the violations", "statement": "The plot of the cumulated violations is the step function of the number of violations over the steps, with as many abscissas as ordinates, also after reset_figures.", "quantifier": "every sequence of steps", "why_tests_cant": "Unboundedly many steps.", "anchors": ["src/gym_electric_motor/visualization/motor_dashboard_plots/cumulative_constraint_violation_plot.py:CumulativeConstraintViolationPlot"]}
{"id": "C94", "title": "reset_figures starts again", "statement": "After reset_figures every time plot shows exactly the steps since then, and every episode plot exactly the episodes begun since then.", "quantifier": "every history before and after", "why_tests_cant": "Needs all histories before and after the reset.", "anchors": ["src/gym_electric_motor/visualization/motor_dashboard.py:MotorDashboardLegacy.reset_figures", "src/gym_electric_motor/visualization/motor_dashboard_plots/reward_plot.py:RewardPlot.reset_data"]}
{"id": "C95", "title": "The console summarises the finished episode", "statement": "Every summary the console printer prints has the number, the end, the length and the return of the episode that just finished.", "quantifier": "every sequence of episodes, every choice when to render", "why_tests_cant": "All interleavings of rendering, steps and resets.", "anchors": ["src/gym_electric_motor/visualization/console_printer.py:ConsolePrinter"]}
{"id": "C96", "title": "The dashboard is updated every update_interval steps", "statement": "In mode Figure the plots are updated in exactly every update_interval-th step; in mode FigureOnce nothing is drawn before close, which then draws the whole run.", "quantifier": "every interval, every number of steps", "why_tests_cant": "Unboundedly many steps.", "anchors": ["src/gym_electric_motor/visualization/motor_dashboard.py:MotorDashboardLegacy.on_step_end", "src/gym_electric_motor/visualization/motor_dashboard.py:MotorDashboard.on_close"]}
{"id": "C97", "title": "Scaled plots contain the data", "statement": "With scale_plots every time plot with data gets limits that contain all its shown values.", "quantifier": "every content of the plots", "why_tests_cant": "All contents of the buffers.", "anchors": ["src/gym_electric_motor/visualization/motor_dashboard_plots/base_plots.py:TimePlot._scale_y_axis"]}
{"id": "C98", "title": "States of DC systems stay in the announced state space", "statement": "If a DC drive starts in its announced state space, then states announced to be non-negative (lower end 0 in get_state_space / state_space.low: speed, torque, currents, voltages) never become negative, whatever voltages the converter gives within its range and whatever the passive load.", "quantifier": "every motor parameter set, every admissible input signal, every load parameter set, all times", "why_tests_cant": "All trajectories of a nonlinear system under all inputs.", "anchors": ["src/gym_electric_motor/physical_systems/electric_motors/dc_series_motor.py:DcSeriesMotor.get_state_space", "src/gym_electric_motor/physical_systems/electric_motors/dc_shunt_motor.py:DcShuntMotor.get_state_space", "src/gym_electric_motor/physical_systems/electric_motors/dc_permanently_excited_motor.py:DcPermanentlyExcitedMotor.get_state_space", "src/gym_electric_motor/physical_systems/electric_motors/dc_motor.py:DcMotor.get_state_space", "src/gym_electric_motor/physical_systems/physical_systems.py:SCMLSystem._build_state_space"]}
{"id": "C99", "title": "A solver may keep the derivatives it was given", "statement": "The result of an ode solver depends only on the values of the right-hand side at the points at which it evaluated it, not on when it uses these values: an array returned by the system equation is not changed by later calls.", "quantifier": "every solver, i.e. every interleaving of evaluations and uses of their results; every system, state, input, time", "why_tests_cant": "All solvers, also custom ones; the defect gives plausible numbers.", "anchors": ["src/gym_electric_motor/physical_systems/physical_systems.py:SCMLSystem._system_equation", "src/gym_electric_motor/physical_systems/solvers.py:EulerSolver.integrate", "src/gym_electric_motor/physical_systems/solvers.py:ScipySolveIvpSolver.integrate"]}
{"id": "C100", "title": "Constraints of one environment do not depend on other environments", "statement": "Which states violate the constraints of an environment does not depend on the environments created later, also if the constraint objects come from the default arguments of the environment class or the user passes one object to two environments.", "quantifier": "every sequence of environments of a class, every layout of the states, every state", "why_tests_cant": "All sequences of constructions with all layouts.", "anchors": ["src/gym_electric_motor/constraints.py:SquaredConstraint.set_modules", "src/gym_electric_motor/constraints.py:LimitConstraint.set_modules", "src/gym_electric_motor/envs/gym_pmsm/cont_cc_pmsm_env.py:ContCurrentControlPermanentMagnetSynchronousMotorEnv.__init__"]}
{"id": "C101", "title": "An agent may reuse its action array", "statement": "With a dead time of n steps the system receives in step k the action commanded in step k-n, also if the agent overwrites its action array after env.step has returned.", "quantifier": "every dead time, every sequence of actions, every use of arrays by the agent", "why_tests_cant": "Tests hand over new arrays or numbers.", "anchors": ["src/gym_electric_motor/physical_system_wrappers/dead_time_processor.py:DeadTimeProcessor.simulate"]}
{"id": "C102", "title": "The state observer answers with the current value of the state asked for", "statement": "After a reset or a step, StateObserver.pull(name) returns the current normalised value of the state or reference called name, whatever state filter the environment has.", "quantifier": "every order of resets and steps, every state filter, every set of referenced states, every name", "why_tests_cant": "Tests look at one environment without filter; nothing exercises the observer between reset and the first step or with filters and references.", "anchors": ["src/gym_electric_motor/observers/observer.py:StateObserver.pull", "src/gym_electric_motor/observers/observer.py:StateObserver.fuse_state_and_next_reference", "src/gym_electric_motor/core.py:ElectricMotorEnvironment.step"]}
{"id": "C103", "title": "More sub-steps make the Euler solver more accurate", "statement": "With nsteps sub-steps the result of EulerSolver.integrate differs from the exact motion of the drive at the end of the interval by at most a constant through nsteps.", "quantifier": "every motor, every load, every input voltage, every start state, every interval, every number of sub-steps", "why_tests_cant": "An error bound for all numbers of sub-steps and all motions; tests compare single steps with recorded numbers.", "anchors": ["src/gym_electric_motor/physical_systems/solvers.py:EulerSolver.integrate", "src/gym_electric_motor/physical_systems/solvers.py:EulerSolver._integrate_nsteps", "src/gym_electric_motor/physical_systems/physical_systems.py:SCMLSystem._system_equation"]}
{"id": "C104", "title": "A drive never creates energy", "statement": "The energy stored in the inductances and the rotating masses of a drive never exceeds the energy stored at the start plus the energy received at the terminals of the motor.", "quantifier": "every motor, every parametrization with invertible inductances and resistances that are not negative, every polynomial load, every course of the voltages, every motion", "why_tests_cant": "A statement about integrals along all solutions of the differential equations of electrical_ode, torque and mechanical_ode together.", "anchors": ["src/gym_electric_motor/physical_systems/electric_motors/electric_motor.py:ElectricMotor.electrical_ode", "src/gym_electric_motor/physical_systems/electric_motors/electric_motor.py:ElectricMotor.torque", "src/gym_electric_motor/physical_systems/mechanical_loads/polynomial_static_load.py:PolynomialStaticLoad.mechanical_ode", "src/gym_electric_motor/physical_systems/physical_systems.py:SCMLSystem._system_equation"]}
{"id": "C105", "title": "Bounded voltages keep a drive bounded, and without voltage it comes to rest", "statement": "With voltages up to a bound the speed and the currents stay within a bound for all times; with viscous friction and voltages zero the stored energy decays exponentially.", "quantifier": "every motor with positive resistances and inductances, every polynomial load, every start state, every course of the voltages, all times", "why_tests_cant": "Bounds for infinitely long motions and all courses of the input; tests simulate a few steps.", "anchors": ["src/gym_electric_motor/physical_systems/electric_motors/electric_motor.py:ElectricMotor.electrical_ode", "src/gym_electric_motor/physical_systems/mechanical_loads/polynomial_static_load.py:PolynomialStaticLoad.mechanical_ode", "src/gym_electric_motor/physical_systems/physical_systems.py:SCMLSystem._system_equation"]}
{"id": "C106", "title": "Every drive has exactly one motion", "statement": "From every state and for every sequence of voltages that are held for a sampling time each, the differential equation the solvers are given has exactly one solution for all times.", "quantifier": "every motor with positive inductances and resistances that are not negative, every polynomial load, every constant speed load and every external speed load with a continuous profile, every start state, every sequence of voltages, every sampling time", "why_tests_cant": "Existence and uniqueness of solutions of a nonlinear differential equation; the solvers return numbers in any case.", "anchors": ["src/gym_electric_motor/physical_systems/physical_systems.py:SCMLSystem._system_equation", "src/gym_electric_motor/physical_systems/physical_systems.py:SCMLSystem.simulate", "src/gym_electric_motor/physical_systems/mechanical_loads/polynomial_static_load.py:PolynomialStaticLoad.mechanical_ode"]}
{"id": "C107", "title": "Simulated episodes approach the motion of the drive", "statement": "After a reset to a state and any number of calls of simulate with given actions, the state of the solver differs by at most a constant through the number of sub-steps of the EulerSolver from the motion of the drive that starts in this state and is fed, between the switching times of the converter, with the voltage the converter delivers for the currents at the last switching time and the supply voltage of the step; this motion exists and is the only one. Where the voltages depend on the signs of currents (diodes, interlocking times) or on the angle of the flux, this holds as long as these do not vanish at the switching times.", "quantifier": "every motor, every polynomial or constant speed load, every converter with or without interlocking time, ideal, single phase and RC supplies, every sequence of actions, every initial state, every number of steps and sub-steps; externally excited synchronous motors with converters that switch at the ends of the steps only (otherwise simulate raises, C109)", "why_tests_cant": "The statement is about limits over the number of sub-steps through reset, set_action, convert, coordinate transformations and solver together; tests run one number of sub-steps and compare with recorded values.", "anchors": ["src/gym_electric_motor/physical_systems/physical_systems.py:SCMLSystem.simulate", "src/gym_electric_motor/physical_systems/physical_systems.py:SynchronousMotorSystem.simulate", "src/gym_electric_motor/physical_systems/physical_systems.py:SquirrelCageInductionMotorSystem.simulate", "src/gym_electric_motor/physical_systems/solvers.py:EulerSolver.integrate", "src/gym_electric_motor/physical_systems/converters.py:ContFourQuadrantConverter.convert", "src/gym_electric_motor/physical_systems/converters.py:ContB6BridgeConverter.convert"]}
{"id": "C108", "title": "Integrators of the operation point selection do not wind up", "statement": "The integrators of the modulation controller and of the flux controller of the squirrel cage motor stay below a bound that depends on the parameters and the ranges of the inputs only, not on the number of steps: while the output is limited they do not grow.", "quantifier": "every sequence of calls, of any length, with speeds and fluxes in given ranges and arbitrary voltages and torques", "why_tests_cant": "Unboundedly long histories of real inputs.", "anchors": ["src/gem_controllers/stages/operation_point_selection/foc_operation_point_selection.py:modulation_control", "src/gem_controllers/stages/operation_point_selection/scim_ops.py:_select_operating_point"]}
{"id": "C109", "title": "Every action of the action space is accepted", "statement": "After a reset, steps with actions of the announced action space never raise an exception, whatever actions of that space were taken before, and every state that is returned, by reset and by simulate, has one entry per state name. This holds for all motors, with every converter with fitting number of outputs: finite and continuous ones, multi converters, any sampling and interlocking times.", "quantifier": "all infinite sequences of actions of the action space, all system classes, converters, sampling times, interlocking times, converter states, all solvers that keep the shape of the state, all supplies with one voltage, all parameters", "why_tests_cant": "Whether a converter switches once or twice in a step depends on the history of actions; sequences, converters and times are unbounded in number.", "anchors": ["src/gym_electric_motor/physical_systems/physical_systems.py:simulate", "src/gym_electric_motor/physical_systems/physical_systems.py:reset", "src/gym_electric_motor/physical_systems/converters.py:set_action", "src/gym_electric_motor/physical_systems/converters.py:convert", "src/gym_electric_motor/physical_systems/converters.py:i_sup"]}
{"id": "C110", "title": "env.sim reports the sampling time and the time of its environment", "statement": "For every environment, env.sim.tau is the sampling time of its physical system and env.sim.t is k tau after k steps of the running episode, whatever other environments exist.", "quantifier": "all sequences of making, resetting and stepping any number of environments, all sampling times", "why_tests_cant": "The attribute is shared by all environments of the process; a test looks at one environment and one history.", "anchors": ["src/gym_electric_motor/core.py:SimulationEnvironment", "src/gym_electric_motor/core.py:ElectricMotorEnvironment.__init__"]}
{"id": "C111", "title": "Plotted references of subordinate stages stand at their time", "statement": "While a controller made with should_plot=True controls an environment, the reference line in the plot of a state that a subordinate stage controls shows at every plotted time the reference the stage set at that time, for as many steps as the plot is wide, whatever resets and renderings happen.", "quantifier": "all sequences of control steps, resets, renderings and openings of the figure, all plot widths and references", "why_tests_cant": "The number and order of steps, resets and renderings is unbounded; the ring buffer wraps around.", "anchors": ["src/gem_controllers/reference_plotter.py:update_plots", "src/gym_electric_motor/visualization/motor_dashboard_plots/state_plot.py:on_step_end", "src/gem_controllers/gem_adapter.py:control"]}
{"id": "C112", "title": "A controller plots exactly what it was asked to plot", "statement": "GemController.make succeeds for environments with any visualizations; a controller made with should_plot=True and plot_references=True writes the references of its stages into the plots of these states, any other controller leaves all plots as they are, whatever other controllers are made later.", "quantifier": "all lists of visualizations and plots, all options, all sequences of further calls of make", "why_tests_cant": "Histories of calls and lists of visualizations are unbounded; the options live in an attribute of a class.", "anchors": ["src/gem_controllers/gem_controller.py:make", "src/gem_controllers/gem_adapter.py:tune", "src/gem_controllers/reference_plotter.py:tune"]}
{"id": "C113", "title": "Tables of the externally excited synchronous motor are right and optimal", "statement": "For every externally excited synchronous motor the operation point selection can be tuned; every row of its tables keeps the current limits and produces the torque of the row; no other point of the search with this torque (and flux) has smaller losses; t_max and t_max_psi are the largest torques that can be reached (with a flux); tables are read at the nearest entry, at a torque the allowed flux permits, with the sign of the reference.", "quantifier": "all motor parameters, limits, grid sizes, torque references, fluxes, all answers of np.roots", "why_tests_cant": "Parameters and limits are real numbers; optimality quantifies over all points of the search.", "anchors": ["src/gem_controllers/stages/operation_point_selection/eesm_ops.py:_calculate_luts", "src/gem_controllers/stages/operation_point_selection/eesm_ops.py:solve_analytical", "src/gem_controllers/stages/operation_point_selection/eesm_ops.py:_select_operating_point"]}
{"id": "C114", "title": "A whole environment always answers", "statement": "In an environment built from the components of the package, whose reference generator has sub-episodes of at least one step and margins inside the state space: reset always returns an observation; a step with an action of the action space always returns while an episode is running, and raises otherwise; the observation has one value per observed state name and the reference part lies in the reference space; the episode is terminated exactly if a limited state (or a squared group of states) is beyond its limit; the reward is then the violation reward, and otherwise lies in reward_range; physical_system.k counts the steps since the last reset. Construction fails exactly if the constraints or the state filter mention a state that does not exist.", "quantifier": "every history of resets, steps and close calls of every environment with a DC motor, synchronous, induction or externally excited synchronous motor, every converter, supply, solver, load, random stream, constraint list, state filter and weighted sum of errors", "why_tests_cant": "The components are tested one by one or in a few default combinations; the number of combinations, histories and random streams is unbounded.", "anchors": ["src/gym_electric_motor/core.py:ElectricMotorEnvironment.__init__", "src/gym_electric_motor/core.py:ElectricMotorEnvironment.step", "src/gym_electric_motor/core.py:ElectricMotorEnvironment.reset", "src/gym_electric_motor/physical_systems/physical_systems.py:SCMLSystem.simulate", "src/gym_electric_motor/reference_generators/subepisoded_reference_generator.py:SubepisodedReferenceGenerator", "src/gym_electric_motor/reward_functions/weighted_sum_of_errors.py:WeightedSumOfErrors", "src/gym_electric_motor/envs/gym_dcm/permex_dc_motor_env/cont_cc_permex_dc_env.py:ContCurrentControlDcPermanentlyExcitedMotorEnv"]}
{"id": "C115", "title": "Every registered environment does what its name says and always answers", "statement": "Motor(type, control, action).env_id() is a registered name for each of the 54 combinations, different combinations have different names, and no other motor environment is registered. The environment of a name has the motor, the kind of actions and the controlled states the name says: references and positive reward weights (sum 1) for exactly the controlled states, a converter of the action kind that fits to the motor. With its default arguments it can be constructed; every reset and every step of a running episode with an action of the action space returns, an episode ends exactly when a default constraint is violated, with reward -10, and other rewards are between -1 and 0 while the state is inside the state space.", "quantifier": "all 54 combinations of motor type, control type and action type; all motor parameters, solvers, initial states, random streams and histories", "why_tests_cant": "Tests run a few environments for a few steps; the statement is about every history of every registered environment.", "anchors": ["src/gym_electric_motor/__init__.py:register", "src/gym_electric_motor/envs/motors.py:Motor.env_id", "src/gym_electric_motor/core.py:ElectricMotorEnvironment.__init__", "src/gym_electric_motor/core.py:ElectricMotorEnvironment.step"]}
{"id": "C116", "title": "Motor.states lists the states of the environment", "statement": "Motor(type, control, action).states() lists exactly the states of the environment with this name.", "quantifier": "all 54 combinations of motor type, control type and action type", "why_tests_cant": "The list is written by hand per motor type, the state names of the system are put together from motor, load and supply; no test compares them.", "anchors": ["src/gym_electric_motor/envs/motors.py:Motor.states", "src/gym_electric_motor/physical_systems/physical_systems.py:SCMLSystem._build_state_names"]}
{"id": "C117", "title": "Limits and nominal values of a system fit together, so that default references stay in the state space", "statement": "Every state of a physical system has a finite limit and a nominal value between 0 and the limit; so the references of generators with the default limit margin (nominal value / limit) stay in the state space.", "quantifier": "all motor classes, all limit_values and nominal_values of the user, all loads, all supplies", "why_tests_cant": "The values come from user dictionaries, class defaults, formulas of the motor parameters and the load, which are merged in several places.", "anchors": ["src/gym_electric_motor/physical_systems/physical_systems.py:SCMLSystem._set_limits", "src/gym_electric_motor/physical_systems/physical_systems.py:SCMLSystem._set_nominal_state", "src/gym_electric_motor/physical_systems/electric_motors/electric_motor.py:ElectricMotor._update_limits", "src/gym_electric_motor/physical_systems/mechanical_loads/polynomial_static_load.py:PolynomialStaticLoad.__init__", "src/gym_electric_motor/reference_generators/subepisoded_reference_generator.py:SubepisodedReferenceGenerator.set_modules"]}
{"id": "C118", "title": "The reported voltages stay in the state space", "statement": "In every history of a system with an ideal supply, every returned state has voltages (phases, components in the rotating frame, excitation, supply) between the bounds of the state space: their amount never exceeds the limit. The largest amounts are the supply voltage for DC circuits, half of it for phases and two thirds of it for components in the rotating frame.", "quantifier": "all motors, converters, solvers, start states, actions (also outside the action space), limits and supply voltages; the default arguments of all 54 registered environments", "why_tests_cant": "The observation space is a Box that agents and checkers take at its word; whether an action sequence leads outside depends on angles, duty cycles and on limits that are merged from several defaults.", "anchors": ["src/gym_electric_motor/physical_systems/physical_systems.py:SCMLSystem.simulate", "src/gym_electric_motor/physical_systems/physical_systems.py:SCMLSystem._set_limits", "src/gym_electric_motor/physical_systems/converters.py:ContB6BridgeConverter.convert", "src/gym_electric_motor/physical_systems/converters.py:FiniteB6BridgeConverter.convert", "src/gym_electric_motor/envs/gym_pmsm/cont_cc_pmsm_env.py:ContCurrentControlPermanentMagnetSynchronousMotorEnv.__init__", "src/gym_electric_motor/envs/gym_dcm/series_dc_motor_env/finite_cc_series_dc_env.py:FiniteCurrentControlDcSeriesMotorEnv.__init__"]}
{"id": "C119", "title": "The supply is charged with the current of the interval that has passed", "statement": "A supply with memory (RC) integrates from its last request to the current one. So the current handed over with a request after the first one of an episode is the one that the converter has drawn in the interval in between: the sum over the outputs of the last conversion times the currents that flow now.", "quantifier": "all motors, converters without interlocking time, solvers, histories of resets and actions, supplies; limits and sampling times", "why_tests_cant": "Supply, converter and solver each work alone; what is wrong is the order in which one component hands values to the other, visible only with a supply that remembers.", "anchors": ["src/gym_electric_motor/physical_systems/physical_systems.py:SCMLSystem.simulate", "src/gym_electric_motor/physical_systems/voltage_supplies.py:RCVoltageSupply.get_voltage", "src/gym_electric_motor/physical_systems/converters.py:FiniteFourQuadrantConverter.i_sup", "src/gym_electric_motor/physical_systems/converters.py:ContFourQuadrantConverter.i_sup", "src/gym_electric_motor/physical_systems/converters.py:ContB6BridgeConverter.i_sup"]}
{"id": "C120", "title": "Induction motors start in the requested state", "statement": "An induction motor with constant initial values starts every episode in the state they describe, if currents and angle lie within the nominal values and the rotor flux does not exceed the nominal magnetisation; random start states lie within the nominal range and depend on the seed of the environment and the speed of the load only; limits for initial values given to the motor are respected, states that are not given start from their default.", "quantifier": "all induction motors (SCIM, DFIM) with any parameters and nominal values, initial values, speeds, histories of resets, draws of numpy's global generator and of the motor's generator", "why_tests_cant": "Acceptance depends on an angle drawn anew from numpy's global generator at every reset and on the currents of the previous start; tests start with zero flux, for which nothing goes wrong.", "anchors": ["src/gym_electric_motor/physical_systems/electric_motors/induction_motor.py:InductionMotor.reset", "src/gym_electric_motor/physical_systems/electric_motors/induction_motor.py:InductionMotor._flux_limit", "src/gym_electric_motor/physical_systems/electric_motors/squirrel_cage_induction_motor.py:SquirrelCageInductionMotor._update_initial_limits", "src/gym_electric_motor/physical_systems/electric_motors/doubly_fed_induction_motor.py:DoublyFedInductionMotor._update_initial_limits", "src/gym_electric_motor/physical_systems/electric_motors/electric_motor.py:ElectricMotor.initialize"]}
{"id": "C121", "title": "Replacing the reference generator of an environment", "statement": "After env.reference_generator = g and the required env.reset(), the environment behaves as if it had been constructed with g: resets and steps answer, observations show the references of g and lie in env.observation_space, and the reward measures the states that g references.", "quantifier": "every environment of the modelled components, every former and new reference generator, the assignment at any time, all further histories of resets and steps", "why_tests_cant": "The setter has no test with a reset and steps behind it; what goes wrong (stale weights, a reference array without dimensions that numpy broadcasts) raises no exception and shows only in the values of the rewards, for every later history.", "anchors": ["src/gym_electric_motor/core.py:ElectricMotorEnvironment.reference_generator", "src/gym_electric_motor/core.py:ElectricMotorEnvironment.__init__", "src/gym_electric_motor/reward_functions/weighted_sum_of_errors.py:WeightedSumOfErrors.set_modules", "src/gym_electric_motor/reference_generators/const_reference_generator.py:ConstReferenceGenerator.get_reference", "src/gym_electric_motor/reference_generators/subepisoded_reference_generator.py:SubepisodedReferenceGenerator.set_modules"]}
{"id": "C122", "title": "Controlled environments run through", "statement": "GemController.control_environment with a controller of the package and the registered environment it was made for executes all its steps: no call of the loop raises, every action lies in the action space, every reference the environment shows is answered; environment and controller can be used afterwards.", "quantifier": "every registered environment and task, all gains, limits, decoupling settings and linear base controllers, all torque functions, solvers, random numbers, histories before the call, numbers of steps and maximum episode lengths", "why_tests_cant": "The tests of the controllers run a few environments for a few steps with fixed seeds, with the outcome unchecked; an exception may depend on the reference drawn (negative torque of a series motor), on a reset in the middle (integrator shapes) or on the action type, and would end a run after any number of steps.", "anchors": ["src/gem_controllers/gem_controller.py:GemController.control_environment", "src/gem_controllers/gem_adapter.py:GymElectricMotorAdapter.control", "src/gem_controllers/pi_current_controller.py:PICurrentController", "src/gem_controllers/torque_controller.py:TorqueController", "src/gem_controllers/pi_speed_controller.py:PISpeedController", "src/gem_controllers/stages/disc_output_stage.py:DiscOutputStage"]}
{"id": "C123", "title": "States and rewards of running episodes lie in the announced ranges", "statement": "While an episode of a registered environment goes on (step returned terminated = False), the returned state lies in the state space that the environment announces and the reward lies in reward_range.", "quantifier": "every registered environment with default parameters, every sequence of calls, all actions, random numbers, reference trajectories and seeds, every solver that solves the differential equation exactly", "why_tests_cant": "Whether a state leaves the space without violating a constraint depends on long runs with particular actions: the tests check single steps with mocked systems; in environments with a series motor, the torque exceeds its limit only after dozens of steps with full voltage.", "anchors": ["src/gym_electric_motor/core.py:ElectricMotorEnvironment.step", "src/gym_electric_motor/core.py:ElectricMotorEnvironment.reward_range", "src/gym_electric_motor/envs/gym_dcm/series_dc_motor_env/cont_tc_series_dc_env.py:ContTorqueControlDcSeriesMotorEnv", "src/gym_electric_motor/envs/gym_dcm/permex_dc_motor_env/cont_sc_permex_dc_env.py:ContSpeedControlDcPermanentlyExcitedMotorEnv", "src/gym_electric_motor/physical_systems/electric_motors/dc_series_motor.py:DcSeriesMotor", "src/gym_electric_motor/reward_functions/weighted_sum_of_errors.py:WeightedSumOfErrors", "src/gym_electric_motor/envs/gym_dcm/extex_dc_motor_env/cont_sc_extex_dc_env.py:ContSpeedControlDcExternallyExcitedMotorEnv", "src/gym_electric_motor/envs/gym_dcm/shunt_dc_motor_env/cont_tc_shunt_dc_env.py:ContTorqueControlDcShuntMotorEnv"]}
{"id": "C124", "title": "Environments with physical system wrappers keep the contract of the environment", "statement": "An environment made with physical_system_wrappers (dead times, cosine and sine, sum of currents, noise, actions in dq coordinates, flux observer, in any order and number) can be constructed and keeps its contract: resets and steps with actions of the outermost action space answer, every observation shows one value per state that the wrapped system announces, in that order, the inner states come first and the added ones behind them, episodes end exactly if the wrapped state violates a constraint, and rewards lie in reward_range or are the violation reward.", "quantifier": "every registered environment with default parameters, every stack of wrappers of the package, every sequence of calls with actions of the outermost action space, all random numbers, limits, motors and solvers", "why_tests_cant": "The tests wrap mocked systems in one wrapper at a time and never build an environment with a stack of them; the stacks, their orders and the histories are unbounded.", "anchors": ["src/gym_electric_motor/core.py:ElectricMotorEnvironment.__init__", "src/gym_electric_motor/core.py:ElectricMotorEnvironment.reset", "src/gym_electric_motor/core.py:ElectricMotorEnvironment.step", "src/gym_electric_motor/physical_system_wrappers/physical_system_wrapper.py:PhysicalSystemWrapper", "src/gym_electric_motor/physical_system_wrappers/cos_sin_processor.py:CosSinProcessor", "src/gym_electric_motor/physical_system_wrappers/dead_time_processor.py:DeadTimeProcessor", "src/gym_electric_motor/physical_system_wrappers/flux_observer.py:FluxObserver"]}
{"id": "C125", "title": "Actions of the classic controllers lie in the action space", "statement": "Whatever state and reference they are given and whatever they have stored, the controllers in examples/classic_controllers return an action of the environment's action space: a number between the bounds for every continuous action (never nan), one of the numbered actions otherwise.", "quantifier": "every controller, all gains and limits, all states and references, all histories of calls", "why_tests_cant": "The integration test runs one controller over one trajectory; saturation and degenerate references such as a torque of zero depend on the trajectory.", "anchors": ["examples/classic_controllers/controllers/continuous_action_controller.py:ContinuousActionController.control", "examples/classic_controllers/controllers/dicrete_action_controller.py:DiscreteActionController.control", "examples/classic_controllers/controllers/cascaded_controller.py:CascadedController.control", "examples/classic_controllers/controllers/foc_controller.py:FieldOrientedController.control", "examples/classic_controllers/controllers/cascaded_foc_controller.py:CascadedFieldOrientedController.control", "examples/classic_controllers/controllers/induction_motor_foc.py:InductionMotorFieldOrientedController.control"]}
{"id": "C126", "title": "The integrators of the classic controllers do not wind up", "statement": "As long as states and references are bounded, the integral parts of all PI and PID controllers in the classic controllers are bounded by one number for all times, also if the action is saturated for ever.", "quantifier": "all gains, limits, sampling times and motors, all bounded sequences of states and references of any length, resets in between", "why_tests_cant": "Wind-up grows with the length of a saturated phase; a test sees one finite trajectory.", "anchors": ["examples/classic_controllers/controllers/continuous_action_controller.py:ContinuousActionController.control", "examples/classic_controllers/controllers/cascaded_controller.py:CascadedController.control", "examples/classic_controllers/controllers/foc_controller.py:FieldOrientedController.control", "examples/classic_controllers/controllers/cascaded_foc_controller.py:CascadedFieldOrientedController.control", "examples/classic_controllers/controllers/continuous_controller.py:IController.integrate"]}
{"id": "C127", "title": "Feed-forward and decoupling of the classic controllers cancel the motor's couplings", "statement": "With an action inside its limits, the EMF compensation of the DC controllers and the decoupling of the field oriented controllers make every current obey the equation of an RL circuit fed by its own PI controller, at every speed; each controller compares the reference with the state it belongs to; shifting the reference potential of the phases changes no current.", "quantifier": "all parameters, limits and nominal values of the motors, all states, references and stored values with an action inside the limits", "why_tests_cant": "Tests check that a reference is followed, which an integrator achieves with a wrong compensation too; equality with the motor equations is a statement about all states and parameters.", "anchors": ["examples/classic_controllers/controllers/continuous_action_controller.py:ContinuousActionController.feedforward", "examples/classic_controllers/controllers/cascaded_controller.py:CascadedController.feedforward", "examples/classic_controllers/controllers/cascaded_controller.py:CascadedController.control", "examples/classic_controllers/controllers/foc_controller.py:FieldOrientedController.control", "examples/classic_controllers/controllers/cascaded_foc_controller.py:CascadedFieldOrientedController.control", "examples/classic_controllers/controllers/induction_motor_foc.py:InductionMotorFieldOrientedController.control"]}
{"id": "C128", "title": "Hysteresis and reset of the classic controllers", "statement": "On-off and three-point controllers switch with hysteresis: they switch on beyond the outer threshold, stay on until the error is below the inner one, and change nothing in between. After reset every controller answers as if it had just been made, whatever was called before.", "quantifier": "all thresholds, gains and stages, all histories of states and references", "why_tests_cant": "Hysteresis and reset are statements about histories of arbitrary length.", "anchors": ["examples/classic_controllers/controllers/on_off_controller.py:OnOffController.control", "examples/classic_controllers/controllers/three_point_controller.py:ThreePointController.control", "examples/classic_controllers/controllers/cascaded_controller.py:CascadedController.reset", "examples/classic_controllers/controllers/continuous_action_controller.py:ContinuousActionController.reset", "examples/classic_controllers/controllers/dicrete_action_controller.py:DiscreteActionController.reset", "examples/classic_controllers/controllers/foc_controller.py:FieldOrientedController.reset"]}
{"id": "C129", "title": "Current control settles at its reference", "statement": "In closed loop with a current controller tuned as the package or the classic controllers of the examples tune it, the current reported for a permanently excited or series DC motor at constant speed tends to a constant reference from every initial current, crosses it at most once, and no call raises, although voltages are limited and the integrator is stopped at the limits, whenever the reference can be held with a voltage inside the limits.", "quantifier": "all motor parameters, speeds, references, initial currents, step lengths up to a bound, tuning parameters a >= 4, four- and two-quadrant converters without dead time, exact and Euler solvers with any number of substeps, with and without decoupling", "why_tests_cant": "Convergence is a statement about infinitely many steps of a loop with saturation; the tests look at a few steps of each part.", "anchors": ["src/gem_controllers/pi_current_controller.py:PICurrentController", "src/gem_controllers/stages/base_controllers/pi_controller.py:PIController", "src/gem_controllers/stages/anti_windup.py:AntiWindup", "src/gem_controllers/gem_adapter.py:GymElectricMotorAdapter.control", "src/gym_electric_motor/physical_systems/physical_systems.py:SCMLSystem.simulate", "examples/classic_controllers/controllers/continuous_action_controller.py:ContinuousActionController.control", "examples/classic_controllers/classic_controllers.py:Controller.automated_gain"]}
{"id": "C130", "title": "The classic controllers convert every torque reference to currents within the nominal values", "statement": "The conversion of torques to currents in the classic controllers answers every torque reference with references of the currents within their nominal values; the currents produce the demanded torque or, if it is out of reach, a part of it with the same sign; a reset conversion answers like a new one.", "quantifier": "all torque references (also beyond the limits), all states, all histories of calls and resets, all parameters of synchronous and induction motors with positive inductances", "why_tests_cant": "The conversion looks references up in tables that depend on motor parameters and limits and keeps an integrator between calls; tests see a few references of a few motors.", "anchors": ["examples/classic_controllers/controllers/torque_to_current_conversion.py:TorqueToCurrentConversion.control", "examples/classic_controllers/controllers/torque_to_current_conversion.py:TorqueToCurrentConversion.reset", "examples/classic_controllers/controllers/induction_motor_torque_to_current_conversion.py:InductionMotorTorqueToCurrentConversion.control", "examples/classic_controllers/controllers/induction_motor_torque_to_current_conversion.py:InductionMotorTorqueToCurrentConversion.reset"]}
{"id": "C131", "title": "The factory of the classic controllers serves every registered environment", "statement": "Controller.make(gem.make(id)) of the examples returns, for every registered environment, a controller whose actions have the kind and size of the environment's actions, and whose PI stages have the gains designed for the quantity they control.", "quantifier": "all 54 registered environments with default arguments; environments with and without the wrappers of gymnasium, of gymnasium before and since 1.0; numpy with and without np.complex; all torque conversions", "why_tests_cant": "Which branch of the factory is taken depends on motor, task, kind of actions, wrappers and library versions; the integration test of the examples runs a few direct current motors in one setting.", "anchors": ["examples/classic_controllers/classic_controllers.py:Controller.make", "examples/classic_controllers/classic_controllers.py:Controller.automated_controller_design", "examples/classic_controllers/classic_controllers.py:Controller.automated_gain", "examples/classic_controllers/controllers/foc_controller.py:FieldOrientedController.__init__"]}
{"id": "C132", "title": "The loops of the examples act on the current observation", "statement": "In the control loops of the example scripts every action is computed from the observation that the environment has returned last, also after an episode has ended and the environment has been reset.", "quantifier": "every environment and controller, every number of steps, every pattern of terminations", "why_tests_cant": "Only runs with terminations show the difference, and the scripts have no tests.", "anchors": ["examples/classic_controllers/classic_controllers_dc_motor_example.py", "examples/classic_controllers/classic_controllers_synch_motor_example.py", "examples/classic_controllers/classic_controllers_ind_motor_example.py"]}
{"id": "C133", "title": "State processors that only add states change nothing else", "statement": "An environment whose physical system is wrapped by processors that only add states (CosSinProcessor, CurrentSumProcessor, FluxObserver) answers every reset and step with the same references, rewards and ends of episodes as the environment without them, and its states are those of the latter with the added ones behind them. In particular the registered shunt motor environments, whose classes add a CurrentSumProcessor, behave like the motor without it.", "quantifier": "all stacks of these processors, all assembled environments, reference generators of the package, sequences of resets, steps and close; all 54 registered environments", "why_tests_cant": "Weights, constraints, reward ranges and reference arrays are all indexed by state; that none of them changes has to be checked for every argument and history. Tests of the processors look at the system alone.", "anchors": ["src/gym_electric_motor/physical_system_wrappers/current_sum_processor.py", "src/gym_electric_motor/physical_system_wrappers/cos_sin_processor.py", "src/gym_electric_motor/physical_system_wrappers/flux_observer.py", "src/gym_electric_motor/core.py:ElectricMotorEnvironment.__init__", "src/gym_electric_motor/envs/gym_dcm/shunt_dc_motor_env"]}
{"id": "C134", "title": "Stages handed over to the factory mean what the automatic design means", "statement": "Controller.make(env, stages) of the classic controllers with the stages that the automatic design chooses makes the same controller as Controller.make(env).", "quantifier": "all 54 registered environments with default arguments, all settings of C131; every form of the argument for shunt motors", "why_tests_cant": "The type of controller is found twice in the code, from the environment by one function and from stages and environment by another one; no test compares them.", "anchors": ["examples/classic_controllers/classic_controllers.py:Controller.find_controller_type", "examples/classic_controllers/classic_controllers.py:Controller.automated_controller_design", "examples/classic_controllers/classic_controllers.py:Controller.make"]}
{"id": "C135", "title": "Interchanging the phases cyclically", "statement": "A three-phase drive whose phases a, b, c are interchanged cyclically (every action, start current and start flux applied to the next phase, angle of the rotor turned by a third for synchronous motors) goes on in the same way: at every reset and step the same speed, torque, dq quantities and supply voltage, and the currents and voltages of the phases interchanged in the same way. No phase is treated differently from the others, neither by the converter (with interlocking and dead legs), nor by the transformations, the motor or the supply.", "quantifier": "all motor parameters, loads, supplies with one voltage, sampling and interlocking times, start states and sequences of resets and actions; PMSM, SynRM, EESM, SCIM, DFIM; switched and averaged B6 bridges, phase and (synchronous motors) dq actions", "why_tests_cant": "A bridge table with one wrong entry or a transformation with one wrong sign is symmetric in most single values that tests look at; the statement relates two whole runs of a closed loop of converter, supply, solver and motor.", "anchors": ["src/gym_electric_motor/physical_systems/physical_systems.py:SynchronousMotorSystem.simulate", "src/gym_electric_motor/physical_systems/physical_systems.py:SquirrelCageInductionMotorSystem.simulate", "src/gym_electric_motor/physical_systems/physical_systems.py:DoublyFedInductionMotorSystem.simulate", "src/gym_electric_motor/physical_systems/converters.py:FiniteB6BridgeConverter", "src/gym_electric_motor/physical_systems/converters.py:ContB6BridgeConverter", "src/gym_electric_motor/physical_systems/electric_motors/three_phase_motor.py:ThreePhaseMotor"]}
{"id": "C136", "title": "The opposite direction", "statement": "A three-phase drive with the phases b and c interchanged (actions, start currents and fluxes, sign of speed and angle) turns in the opposite direction and else goes on in the same way: at every reset and step the opposite speed, torque, q components and angle, the same d components, excitation and supply voltage, the currents and voltages of the phases b and c interchanged. For drives with dq actions the q component of the action is reversed instead. A DC drive with four quadrant converter and reversed actions turns in the opposite direction with opposite current and voltage if it is permanently excited or if the voltage of exactly one winding of the externally excited motor is reversed, and in the same direction with the same torque if the voltages of both windings are reversed, as in series and shunt motors.", "quantifier": "all motor parameters, loads (constant speed, polynomial, external speed profile reversed), supplies with one voltage, sampling and interlocking times, start states and sequences of resets and actions; PMSM, SynRM, EESM, SCIM, DFIM with B6 bridges, PermEx, series, shunt, ExtEx with four quadrant converters; switched and averaged", "why_tests_cant": "It relates two whole runs of the closed loop; a quadrant treated differently from the opposite one (static friction, interlocking, converter table, sign of a cross-coupling term) shows only in some combinations of actions, currents and speeds.", "anchors": ["src/gym_electric_motor/physical_systems/physical_systems.py:DcMotorSystem.simulate", "src/gym_electric_motor/physical_systems/physical_systems.py:SynchronousMotorSystem.simulate", "src/gym_electric_motor/physical_systems/physical_systems.py:SquirrelCageInductionMotorSystem.simulate", "src/gym_electric_motor/physical_systems/physical_systems.py:DoublyFedInductionMotorSystem.simulate", "src/gym_electric_motor/physical_systems/converters.py:FiniteFourQuadrantConverter", "src/gym_electric_motor/physical_systems/converters.py:ContFourQuadrantConverter", "src/gym_electric_motor/physical_systems/mechanical_loads/polynomial_static_load.py:PolynomialStaticLoad"]}
{"id": "C137", "title": "Control in the opposite direction", "statement": "A drive with classic controllers runs alike in both directions: with the references of the reversed quantities reversed and the system started in the opposite direction (C136) every call of the controller gives the mirrored action (opposite switches or duty cycles; phases b and c interchanged) or the same error, and the closed loop passes through the mirrored observations. The operation points of PMSM and SynRM for the opposite torque have the same i_d and the opposite i_q.", "quantifier": "all controller gains, with or without integrating part and EMF feedforward, clipping with even ranges, motor parameters, loads, references, numbers of steps; current, torque and speed control of permanently and externally excited DC motors, current control of series and shunt motor, PMSM, SynRM, EESM; finite and averaged converters of DC drives, averaged B6 bridges", "why_tests_cant": "A sign lost in a feedforward term, an anti-windup that treats one sign differently or a switching table that favours one direction shows only when two whole runs of the closed loop are compared, for all histories of the integrators.", "anchors": ["src/gem_controllers/stages/base_controllers/pi_controller.py:PIController", "src/gem_controllers/stages/emf_feedforward.py:EMFFeedforward", "src/gem_controllers/stages/emf_feedforward_eesm.py:EMFFeedforwardEESM", "src/gem_controllers/stages/clipping_stages/absolute_clipping_stage.py:AbsoluteClippingStage", "src/gem_controllers/stages/disc_output_stage.py:DiscOutputStage", "src/gem_controllers/stages/cont_output_stage.py:ContOutputStage", "src/gem_controllers/stages/operation_point_selection/pmsm_ops.py:PMSMOperationPointSelection", "src/gem_controllers/gem_adapter.py:GymElectricMotorAdapter.control"]}
{"id": "C138", "title": "Holding an action", "statement": "Frame skipping: a drive with sampling time k*tau and k*n intervals of the Euler solver per step answers to every sequence of resets and actions exactly as the same drive with sampling time tau and n intervals when every action is given k times in a row: the observations at the resets and after the last repetition are the same. So holding an action for k environment steps and using a k times longer sampling time are interchangeable.", "quantifier": "all k, n, sampling times, motor parameters, static and constant speed loads, start states, sequences of resets and legal actions; ideal supply; finite and averaged two and four quadrant converters and B6 bridges without interlocking time; PermEx, series, shunt, ExtEx motors and the SCIM (states outside field coordinates)", "why_tests_cant": "It compares two environments with different sampling times over whole histories; anything that is done once per step instead of continuously (transformation with the angle at the beginning of the step, interlocking, time handed to the right-hand side) breaks it for some speeds, numbers of intervals or histories only.", "anchors": ["src/gym_electric_motor/physical_systems/physical_systems.py:DcMotorSystem.simulate", "src/gym_electric_motor/physical_systems/physical_systems.py:SynchronousMotorSystem.simulate", "src/gym_electric_motor/physical_systems/physical_systems.py:SquirrelCageInductionMotorSystem.simulate", "src/gym_electric_motor/physical_systems/solvers.py:EulerSolver", "src/gym_electric_motor/physical_systems/converters.py:FiniteFourQuadrantConverter", "src/gym_electric_motor/physical_systems/converters.py:ContB6BridgeConverter"]}
{"id": "C139", "title": "The observation determines the future", "statement": "For DC motors, PMSM, SynRM and EESM with an ideal supply, a load whose equation does not depend on time, the Euler solver, and converters without memory (finite converters without interlocking time, with closed or open switches; continuous converters with any interlocking time): whenever the last observations of two histories of a physical system (each beginning with a reset) are the same, all answers to the same further calls of simulate and reset are the same, whatever happened before, however many steps were made, and also if the two systems are different objects with the same parameters. The squirrel cage motor does not have this property, since its flux is not observed, and neither have finite converters with interlocking time, since the position of the switches is not observed.", "quantifier": "all motor parameters, static loads, supply voltages, nonzero limits of speed, currents and angle, numbers of solver steps, step sizes, pasts and futures of any length with resets in between, legal actions", "why_tests_cant": "It relates every pair of histories of any length with the same last observation to all their futures; a test compares two runs, which almost never end with the same observation.", "anchors": ["src/gym_electric_motor/physical_systems/physical_systems.py:DcMotorSystem.simulate", "src/gym_electric_motor/physical_systems/physical_systems.py:SynchronousMotorSystem.simulate", "src/gym_electric_motor/physical_systems/physical_systems.py:ExternallyExcitedSynchronousMotorSystem.simulate", "src/gym_electric_motor/physical_systems/physical_systems.py:SCMLSystem.reset", "src/gym_electric_motor/physical_systems/solvers.py:EulerSolver.integrate", "src/gym_electric_motor/physical_systems/converters.py"]}
{"id": "C140", "title": "Special motors are special cases of the general ones", "statement": "A physical system with a special motor answers every history of resets and steps as the system with the more general motor does when the latter is operated as the special case: (a) a doubly fed induction motor whose rotor is short-circuited (the rotor bridge keeps the switching state 0 or 7, or gets three equal duty cycles) answers as the squirrel cage motor with the same parameters, in all states of the latter; (b) an externally excited DC motor whose two converters get the same action answers as the shunt motor, both voltages being that of the shunt motor; (c) an externally excited DC motor whose exciting current is the stationary current of its constant exciting voltage answers as the permanently excited motor with the flux l_e_prime * i_e; (d) a synchronous reluctance motor answers as a PMSM with psi_p = 0.", "quantifier": "all motor parameters, loads, supplies with one voltage that does not depend on the current (c: ideal supplies), solvers of any kind (c: Euler solver with any number of intervals), interlocking times of the stator's or armature's converter, histories of any length with resets in between, legal actions, all agreeing limits", "why_tests_cant": "The statement compares two different systems over all histories, parameters, loads and solvers; a test compares two runs.", "anchors": ["src/gym_electric_motor/physical_systems/physical_systems.py:DoublyFedInductionMotorSystem.simulate", "src/gym_electric_motor/physical_systems/physical_systems.py:SquirrelCageInductionMotorSystem.simulate", "src/gym_electric_motor/physical_systems/physical_systems.py:DcMotorSystem.simulate", "src/gym_electric_motor/physical_systems/electric_motors/doubly_fed_induction_motor.py", "src/gym_electric_motor/physical_systems/electric_motors/squirrel_cage_induction_motor.py", "src/gym_electric_motor/physical_systems/electric_motors/dc_shunt_motor.py", "src/gym_electric_motor/physical_systems/electric_motors/dc_permanently_excited_motor.py", "src/gym_electric_motor/physical_systems/electric_motors/synchronous_reluctance_motor.py"]}
{"id": "C141", "title": "Limits only scale the observation", "statement": "Two physical systems that differ in their limits only (same motor, load, supply, converter, solver, starts and actions) answer every sequence of resets and steps with the same physical values: in each state with nonzero limits, the reported value times the limit is the same. Where one raises an exception the other raises the same one. The limits therefore affect normalisation only and never the dynamics.", "quantifier": "all motors, converters, supplies, loads and solvers (parameters of the model), all pairs of limit vectors of equal length, all current states of the system, all sequences of resets and actions, legal or not", "why_tests_cant": "The statement compares two systems over all histories and all pairs of limits; a test compares two runs with two limit vectors.", "anchors": ["src/gym_electric_motor/physical_systems/physical_systems.py:SCMLSystem.simulate", "src/gym_electric_motor/physical_systems/physical_systems.py:SCMLSystem.reset"]}
{"id": "C142", "title": "Superposition at constant speed", "statement": "With the ConstantSpeedLoad a drive is linear. If three systems of the same kind are started from ODE states of which the third is the mixture (1-lam) x + lam y of the first two (same speed and angle), and get actions of which the third is carried out as the mixture of the first two, then all three answer every such history of resets and steps, and each reported state of the third is the mixture of those of the first two: currents and voltages of all DC motors, of PMSM, SynRM and EESM (phases and dq coordinates, angle, speed, supply) and of the squirrel cage motor (phases); the torque too for the permanently excited DC motor, which may even be started at different speeds. For the torque of the other motors the statement is false: it is a product of states.", "quantifier": "all motor parameters, mixtures lam (for duty cycles in the action space and dq actions of length at most 1: lam in [0,1]), converters that set their switches once in a step (finite and continuous without interlocking time), supplies with a fixed voltage, limits, numbers of intervals of the Euler solver, histories of any length with resets in between", "why_tests_cant": "The statement relates three runs for all starts, actions, parameters and lengths; a test compares three runs.", "anchors": ["src/gym_electric_motor/physical_systems/physical_systems.py:SCMLSystem.simulate", "src/gym_electric_motor/physical_systems/physical_systems.py:SynchronousMotorSystem.simulate", "src/gym_electric_motor/physical_systems/physical_systems.py:ExternallyExcitedSynchronousMotorSystem.simulate", "src/gym_electric_motor/physical_systems/physical_systems.py:SquirrelCageInductionMotorSystem.simulate", "src/gym_electric_motor/physical_systems/solvers.py:EulerSolver"]}
{"id": "C143", "title": "The predictive controller's voltages are legal and reach the motor", "statement": "The example controller MPC (PMSM current control) returns, for every observation, reference and answer of its optimiser, three duty cycles in [-1, 1] if the three phase voltage limits are equal and positive. The voltage limitations it gives to the optimiser say exactly that no voltage between two phases exceeds twice the phase limit, its differential equations are those of the motor, and the voltage in field coordinates chosen by the optimiser within these limitations is the one that drives the motor during the coming step; a voltage outside is shortened in its direction. In the notebook itself (u limit 450 V, supply 400 V) the motor receives 8/9 of it.", "quantifier": "all motor parameters, limits, horizons, sampling times, observations, references, optimiser answers and exceptions, all static loads, states and numbers of Euler intervals", "why_tests_cant": "the transformation, the additional limitation and the zero point shift interact over a continuum of angles and voltages, and the optimiser may answer with anything; a run of the notebook looks plausible although every voltage is 11 % too small", "anchors": ["examples/model_predictive_controllers/pmsm_mpc_dq_current_control.ipynb:104-238", "examples/model_predictive_controllers/pmsm_mpc_dq_current_control.ipynb:263", "src/gym_electric_motor/physical_systems/physical_systems.py:487-525"]}
{"id": "C144", "title": "The wrappers and loggers of the example notebooks do what the notebooks say", "statement": "FeatureWrapper (DQN notebook) gives observations inside its declared observation space whenever the wrapped environment does, and no information about the observation is lost; with a dead time of one step, the last entries of every observation of LastActionWrapper (DDPG notebook) are the action that the physical system carries out in the next step; RewardLogger (DQN notebook), registered as any callback of any environment, holds the mean of the rewards given to the caller for every episode with a step; MyConstraint (cookbook) is a degree in [0, 1]. CurrentVectorProcessor (cookbook) appends the length of the current vector - it does not: both of its indices are that of i_sq. The cookbook's RewardLogger starts its list of means with nan.", "quantifier": "all observations, angle positions, wrapped environments and physical systems (raising or not), actions, histories of reset/step/close, callback positions", "why_tests_cant": "the notebooks have no tests at all; the claims are about every observation and every history, and the defects show only as slightly wrong numbers or a nan", "anchors": ["examples/environment_features/GEM_cookbook.ipynb:552-570", "examples/environment_features/GEM_cookbook.ipynb:703-722", "examples/environment_features/GEM_cookbook.ipynb:792-851", "examples/reinforcement_learning_controllers/stable_baselines3_dqn_disc_pmsm_example.ipynb:132-215", "examples/reinforcement_learning_controllers/stable_baselines3_ddpg_pmsm_dq_current_control.ipynb:161-182"]}
{"id": "C145", "title": "The grid of the grid example is a symmetrical three-phase system, recorded in time", "statement": "The function made by parameterize_three_phase_grid gives, at every time, three voltages that sum up to zero, stay within the amplitude, have the given frequency and follow each other by a third of a period; their space vector has constant length and turns with the grid. The amplitude is a fraction of the DC link voltage (it is not: the bridge applies half of it) and every recorded state stands beside its time (it does not: from the first step on the time is one sampling time too small, and 0 occurs twice).", "quantifier": "all amplitudes, frequencies, phases and times; all systems whose clock advances by tau, all numbers of steps", "why_tests_cant": "the example is only plotted; a factor of one half and a shift of one sampling time cannot be seen in the plot", "anchors": ["examples/environment_features/scim_ideal_grid_simulation.py:14-34", "examples/environment_features/scim_ideal_grid_simulation.py:53-83", "src/gym_electric_motor/physical_systems/converters.py:842-920"]}
{"id": "C146", "title": "A reset removes the past of the cascaded field oriented controllers; torque and flux stay in range", "statement": "After reset, a CascadedFieldOrientedController (examples/classic_controllers) acts as if there had been no calls before: no later action depends on the past, for current, torque and speed control. The current references belong to the torque reference times the torque limit, and the speed controller never asks for more than the torque limit. The modulation controller aims below the largest modulation and corrects the flux only within its range. The automatic gains tune both axes, and a reset restores all sub converters of a continuous multi converter. For induction motors the first claim fails: the conversion keeps the integrated modulation in a reset.", "quantifier": "all parameters, gains (PI and PID), conversions that forget, tables, states, references, histories of control/reset and later calls, raising or not", "why_tests_cant": "what survives a reset shows only after particular histories, in later episodes, and as a small difference of the flux; the range of the flux correction is a claim about all speeds and voltages", "anchors": ["examples/classic_controllers/controllers/cascaded_foc_controller.py:154-313", "examples/classic_controllers/controllers/torque_to_current_conversion.py:51-70", "examples/classic_controllers/controllers/torque_to_current_conversion.py:602-712", "examples/classic_controllers/controllers/induction_motor_torque_to_current_conversion.py:263-363", "examples/classic_controllers/classic_controllers.py:469-493", "src/gym_electric_motor/physical_systems/converters.py:710-715"]}
{"id": "C147", "title": "Raising the three phase voltages together changes nothing else; seven of the eight switching states suffice", "statement": "In PMSM, SynRM, EESM, squirrel cage and doubly fed induction motor systems with a three phase converter without interlocking time, an ideal supply and the Euler solver, two histories whose actions put voltages on the phases that differ only by a common amount are answered with the same observations but for the voltages of the phases. Among the eight actions of the finite B6 bridge this holds exactly for 0 and 7, so the notebook that offers only Discrete(7) to the agent removes nothing; with a nonzero supply voltage any other two actions are told apart by u_sd and u_sq.", "quantifier": "all motor parameters, loads with equations independent of time, limits, sampling times, numbers of solver intervals, pasts of both systems, initial states and sequences of resets and actions", "why_tests_cant": "A test runs some sequences of some actions; that two actions are interchangeable is a statement about all histories before and after.", "anchors": ["examples/reinforcement_learning_controllers/stable_baselines3_dqn_disc_pmsm_example.ipynb:284-287", "src/gym_electric_motor/physical_systems/converters.py", "src/gym_electric_motor/physical_systems/physical_systems.py"]}
{"id": "C148", "title": "The example's speed profiles and the speed of a drive that follows them", "statement": "Under an ExternalSpeedLoad the speed never leaves a band in which the profile stays and equals the profile as long as this is a ramp, whatever the torque (solver errors aside). The sine, triangle and sawtooth profiles of external_speed_profile.py stay between bias - amplitude and bias + amplitude and repeat with the given frequency. The initial speed is the bias of the profile, as the comment says: true for the sine and the constant, false for the triangle and for the sawtooth that the example uses, which begin at bias - amplitude (0 instead of 40 rad/s).", "quantifier": "all profiles, torques, amplitudes, frequencies, biases, sampling times and times", "why_tests_cant": "A test compares speeds at some times for some profile; a band is a statement about all times, and the comment about the initial value is not tested at all.", "anchors": ["examples/environment_features/external_speed_profile.py:44-61", "examples/environment_features/external_speed_profile.py:68-70", "src/gym_electric_motor/physical_systems/mechanical_loads/external_speed_load.py"]}
{"id": "C149", "title": "Random initial speeds of loads lie in the interval the user gives", "statement": "With a load initializer of random_init 'uniform' or 'gaussian' and an interval [[a, b]], every reset of a ConstantSpeedLoad or PolynomialStaticLoad returns one speed that lies between a and b and within the nominal range of the system, whatever loads were created and reset before; a uniform speed depends on the draw alone. This needs a common point of interval and nominal range: if the interval lies above the nominal speed the speed is drawn between the two and lies in neither. omega_fixed, documented as the constant value of the speed, keeps the value of the constructor and differs from every speed the load ever has if it lies outside the interval (as in userdefined_initialization.py: 100 against 60 to 80).", "quantifier": "all programs that create and reset loads, dictionaries, intervals, nominal values, state spaces and draws", "why_tests_cant": "A test samples some resets of one load; sharing of dictionaries between loads and the range of all draws are statements about all programs and draws.", "anchors": ["src/gym_electric_motor/physical_systems/mechanical_loads/mechanical_load.py:100-165", "src/gym_electric_motor/physical_systems/mechanical_loads/constant_speed_load.py:20-38", "examples/environment_features/userdefined_initialization.py:34-39"]}
{"id": "C150", "title": "External plots of the classic controllers show the data passed to them", "statement": "If data are passed to an ExternalPlot before every step, as its docstring does, every line shows at the time of each step the value passed for this line at that time, for as many steps as the plot is wide; a value for every line suffices for add_data to succeed. Every call of control hands the data of the controller to its plots without an exception: references of a cascaded controller to the plots of their states, data of the flux to external plots. True for referenced plots at all times but the newest. False at the newest time once the plot is full: the data of one plot width earlier stand there. False without a reference: the first additional line stays empty and every further one shows the data of the line before it. False for a second plot of the same state, which never gets a reference. False for controllers with a single stage (ContinuousActionController, DiscreteActionController): with any plot for references every call of control raises a TypeError.", "quantifier": "all numbers of lines, plot widths, sampling times, sequences of data, lists of plots and references", "why_tests_cant": "The ring buffer wraps around after as many steps as the plot is wide, and which container a line shows depends on the combination of options; a test looks at one plot after some steps.", "anchors": ["examples/classic_controllers/external_plot.py:102-195", "examples/classic_controllers/controllers/plot_external_data.py:24-54", "src/gym_electric_motor/visualization/motor_dashboard_plots/base_plots.py:63-71", "examples/classic_controllers/controllers/continuous_action_controller.py:133", "examples/classic_controllers/controllers/dicrete_action_controller.py:73"]}
{"id": "C151", "title": "Classic controllers assign every reference to the state it refers to", "statement": "If a classic controller can be made for an environment, the state it assigns to a position of the reference observation is the state the generator refers to there, whatever sub generators are active; reference_names lists the same states in the same order, and no state occurs twice. A controller finds the states of every generator an environment accepts. The last sentence holds for generators of one state, switched ones of these, and multiple ones of both. It is false for nested generators: a multiple generator within another, one within a switched one, a switched within a switched one, or a ZeroReferenceGenerator make the construction fail, although the environment works with them.", "quantifier": "all trees of reference generators that the constructors accept and all choices of active sub generators", "why_tests_cant": "Tests build a few flat generators; the claim is about arbitrarily nested generators and every random choice of the active one.", "anchors": ["examples/classic_controllers/classic_controllers.py:117-133", "src/gym_electric_motor/reference_generators/multiple_reference_generator.py:40-85", "src/gym_electric_motor/reference_generators/switched_reference_generator.py:25-88"]}
