{
 "claims": [
  {
   "property": "C01",
   "status": "proved",
   "theorems": [
    "GEM.Props.c01_executed_needs_reset",
    "GEM.Props.c01_allowed_executes",
    "GEM.Props.c01_rejected_no_effect"
   ],
   "note": "executed iff the caller's history allows it; c01_allowed_executes assumes that get_reference_observation does not raise (the only call after the flag is set)"
  },
  {
   "property": "C02",
   "status": "proved",
   "theorems": [
    "GEM.Props.c02_step"
   ],
   "note": ""
  },
  {
   "property": "C03",
   "status": "proved",
   "theorems": [
    "GEM.Props.c03_protocol",
    "GEM.Props.c03_step_numbers",
    "GEM.Props.c03_numbers",
    "GEM.Props.c03_assembled",
    "GEM.Props.c03_default"
   ],
   "note": "The order holds for arbitrary modules that may raise. Step numbers: c03_numbers only assumes the counter law of the physical system and that no step since the last reset has raised; the law is discharged for every assembled environment (c03_assembled), and for the registered environments with default converter and generator nothing raises (c03_default). The wrapper that the classes of shunt motors add changes only the state i_sum behind the others (C133)."
  },
  {
   "property": "C04",
   "status": "partial",
   "theorems": [
    "GEM.Props.c04_default",
    "GEM.Props.c04_registered_partial",
    "GEM.Props.c04_assembled_partial",
    "GEM.Props.c04_generators",
    "GEM.Props.c04_components_partial",
    "GEM.Props.c04_reproducible_partial",
    "GEM.Props.c04_histories_partial",
    "GEM.Props.c04_seed_determines_streams",
    "GEM.Props.c04_wrapper_unseeded_violated",
    "GEM.Props.c04_unseeded_reset_violated",
    "GEM.Props.c04_interlocking_violated",
    "GEM.Props.c04_ac_supply_violated"
   ],
   "note": "proved for all registered environments with their default converters and references and any load, supply and solver that forget their past (Euler, ideal and RC supplies do); false for wrappers' generators, for a later reset() without seed, for finite converters with interlocking time and for AC supplies without fixed phase; scipy solvers are assumed to forget when set_initial_value is called The wrapper that the classes of shunt motors add changes only the state i_sum behind the others (C133)."
  },
  {
   "property": "C05",
   "status": "proved",
   "theorems": [
    "GEM.Props.c05_filter",
    "GEM.Props.c05_names",
    "GEM.Props.c05_unknown",
    "GEM.Props.c05_all"
   ],
   "note": ""
  },
  {
   "property": "C06",
   "status": "proved",
   "theorems": [
    "GEM.Props.c06_max",
    "GEM.Props.c06_range",
    "GEM.Props.c06_perm"
   ],
   "note": ""
  },
  {
   "property": "C07",
   "status": "partial",
   "theorems": [
    "GEM.Props.c07_product_violated",
    "GEM.Props.c07_merge_partial"
   ],
   "note": "the code raises on every input; the merge function itself has the claimed properties"
  },
  {
   "property": "C08",
   "status": "proved",
   "theorems": [
    "GEM.Props.c08_exact",
    "GEM.Props.c08_unknown"
   ],
   "note": ""
  },
  {
   "property": "C09",
   "status": "proved",
   "theorems": [
    "GEM.Props.c09_exact",
    "GEM.Props.c09_unknown"
   ],
   "note": ""
  },
  {
   "property": "C10",
   "status": "partial",
   "theorems": [
    "GEM.Props.c10_callable_violated",
    "GEM.Props.c10_counts_partial"
   ],
   "note": "plain callables are dropped by the environment"
  },
  {
   "property": "C100",
   "status": "partial",
   "theorems": [
    "GEM.Props.c100_partial",
    "GEM.Props.c100_violated",
    "GEM.Props.c100_limit_violated"
   ],
   "note": "Proved if all environments place the constrained states alike. Violated otherwise: the shared constraint keeps the positions of the environment made last (squared) or the names of the one made first (all_states)."
  },
  {
   "property": "C101",
   "status": "partial",
   "theorems": [
    "GEM.Props.c101_partial",
    "GEM.Props.c101_violated"
   ],
   "note": "Proved if every action is in an array of its own. Violated: with one reused array the newest action is applied at once, since the deque stores the array itself."
  },
  {
   "property": "C102",
   "status": "partial",
   "theorems": [
    "GEM.Props.c102_partial",
    "GEM.Props.c102_filter_violated",
    "GEM.Props.c102_reference_violated",
    "GEM.Props.c102_first_violated",
    "GEM.Props.c102_reset_violated"
   ],
   "note": "Holds after a step for every state when no state is filtered out. Violated: a filter that moves a state makes the observer answer with another state; a reference raises IndexError; before the first step every name raises TypeError; after a reset the last values of the previous episode are returned."
  },
  {
   "property": "C103",
   "status": "partial",
   "theorems": [
    "GEM.Props.c103_partial",
    "GEM.Props.c103_dc_partial",
    "GEM.Props.c103_sync_partial",
    "GEM.Props.c103_induction_partial",
    "GEM.Props.c103_external_violated"
   ],
   "note": "Proved for all motors with polynomial and constant speed loads (and for every autonomous right-hand side that is Lipschitz on bounded sets). Violated with an ExternalSpeedLoad: because of the wrong times of the sub-steps (C24) one sub-step is exact for a ramp and every higher number misses it by more than v*tau*(1-1/e)."
  },
  {
   "property": "C104",
   "status": "proved",
   "theorems": [
    "GEM.Props.c104_dc",
    "GEM.Props.c104_three_phase"
   ],
   "note": "for all motors of the model with the polynomial load"
  },
  {
   "property": "C105",
   "status": "partial",
   "theorems": [
    "GEM.Props.c105_dc_partial",
    "GEM.Props.c105_sync_partial",
    "GEM.Props.c105_induction_partial",
    "GEM.Props.c105_rest_dc",
    "GEM.Props.c105_rest_three_phase",
    "GEM.Props.c105_rest_eesm",
    "GEM.Props.c105_series_violated"
   ],
   "note": "boundedness needs a load torque that grows with the speed: the unloaded series motor runs away (violated); the angle is not bounded"
  },
  {
   "property": "C106",
   "status": "proved",
   "theorems": [
    "GEM.Props.c106_dc",
    "GEM.Props.c106_sync",
    "GEM.Props.c106_induction"
   ],
   "note": ""
  },
  {
   "property": "C107",
   "status": "proved",
   "theorems": [
    "GEM.Props.c107_dc",
    "GEM.Props.c107_sync",
    "GEM.Props.c107_eesm",
    "GEM.Props.c107_scim",
    "GEM.Props.c107_dfim",
    "GEM.Props.c107_converters",
    "GEM.Props.c107_pairs",
    "GEM.Props.c107_supplies"
   ],
   "note": "All motors and control spaces; finite and continuous converters alone and in pairs, also with interlocking time; all supplies with one voltage. The motion contains what the code does at switching times (C61)."
  },
  {
   "property": "C108",
   "status": "proved",
   "theorems": [
    "GEM.Props.c108_modulation",
    "GEM.Props.c108_flux"
   ],
   "note": ""
  },
  {
   "property": "C109",
   "status": "partial",
   "theorems": [
    "GEM.Props.c109_dc",
    "GEM.Props.c109_sync",
    "GEM.Props.c109_scim",
    "GEM.Props.c109_dfim",
    "GEM.Props.c109_eesm_partial",
    "GEM.Props.c109_eesm_times_violated",
    "GEM.Props.c109_eesm_system_tau_violated",
    "GEM.Props.c109_eesm_interlock_violated"
   ],
   "note": "Proved for DC, PMSM, SynRM, SCIM and DFIM systems with every converter with fitting number of outputs. EESM systems accept the action space only if all half bridges have one sampling time and finite converters no interlocking time: every further switching time raises ValueError, because the loop takes two of the three phase voltages (physical_systems.py:632); with a bridge beside a two quadrant converter and a sampling time other than the default that is every step. Supplies with several voltages: C71."
  },
  {
   "property": "C11",
   "status": "proved",
   "theorems": [
    "GEM.Props.c11_accepts",
    "GEM.Props.c11_rejects",
    "GEM.Props.c11_slot",
    "GEM.Props.c11_unnamed",
    "GEM.Props.c11_last_wins",
    "GEM.Props.c11_other_inputs"
   ],
   "note": ""
  },
  {
   "property": "C110",
   "status": "partial",
   "theorems": [
    "GEM.Props.c110_partial",
    "GEM.Props.c110_tau_violated",
    "GEM.Props.c110_time_violated"
   ],
   "note": "sim is an attribute of the class: tau is right only for the environment made last, and t is always 0 because step is never counted."
  },
  {
   "property": "C111",
   "status": "partial",
   "theorems": [
    "GEM.Props.c111_partial",
    "GEM.Props.c111_newest_violated"
   ],
   "note": "The references of all rounds stand at the beginning of their step, but at every rendering the newest point of the line is the value of the reference generator, 0 for states it does not reference. Assumes the figure is opened after the controller was made."
  },
  {
   "property": "C112",
   "status": "partial",
   "theorems": [
    "GEM.Props.c112_partial",
    "GEM.Props.c112_other_violated",
    "GEM.Props.c112_plot_references_violated",
    "GEM.Props.c112_console_violated",
    "GEM.Props.c112_zero_line_violated"
   ],
   "note": "should_plot is an attribute of the class that every later make overwrites; plot_references has no effect; make raises for environments with a ConsolePrinter; with should_plot=False the plots still get a reference line of zeros."
  },
  {
   "property": "C113",
   "status": "partial",
   "theorems": [
    "GEM.Props.c113_rows",
    "GEM.Props.c113_best_partial",
    "GEM.Props.c113_largest",
    "GEM.Props.c113_made",
    "GEM.Props.c113_lookup",
    "GEM.Props.c113_round_rotor_violated",
    "GEM.Props.c113_loss_violated",
    "GEM.Props.c113_weakening_violated"
   ],
   "note": "The rows are right and optimal for the loss of the code, for every answer of np.roots; motors with l_d = l_q cannot be tuned; the loss of the code is not the copper loss; in field weakening the torque is not reduced. Interpolation (scipy) is a parameter; the flux of the rows is C54; np.complex in line 184 is not modelled (tune raises with numpy >= 1.24)."
  },
  {
   "property": "C114",
   "status": "partial",
   "theorems": [
    "GEM.Props.c114_environment_partial",
    "GEM.Props.c114_constructed",
    "GEM.Props.c114_references",
    "GEM.Props.c114_constant",
    "GEM.Props.c114_zero",
    "GEM.Props.c114_multiple",
    "GEM.Props.c114_switched",
    "GEM.Props.c114_permex",
    "GEM.Props.c114_range_violated"
   ],
   "note": "Holds except that rewards of running episodes leave reward_range when a weighted state that is not limited leaves the state space (c114_range_violated: speed controlled environments limit the current only); inside the state space the range holds. c114_environment_partial takes systems that accept their action space (C109: all systems of the package, externally excited synchronous motors with one switching time per step) and generators that provide references; c114_references, c114_constant, c114_zero, c114_multiple, c114_switched show this for all generators of the package; c114_permex is a default environment with all hypotheses discharged. Physical system wrappers: C124; modules exchanged during the run: C121."
  },
  {
   "property": "C115",
   "status": "proved",
   "theorems": [
    "GEM.Props.c115_names",
    "GEM.Props.c115_generators",
    "GEM.Props.c115_environment",
    "GEM.Props.c117_environment",
    "GEM.Props.c115_system",
    "GEM.Props.c115_registered"
   ],
   "note": "Registration, Motor.env_id, default arguments of the 54 environment classes. The answers are those of C114 for these arguments; limits and nominal values only have to fit together, which the default ones do (C117). c115_registered is about the environments with the CurrentSumProcessor that the classes of shunt motors add."
  },
  {
   "property": "C116",
   "status": "partial",
   "theorems": [
    "GEM.Props.c116_states_partial",
    "GEM.Props.c116_states_violated",
    "GEM.Props.c116_sum_violated"
   ],
   "note": "Motor.states() only lists states of the environment, without repetition, and all but the supply voltage, for some motors the angle, and for shunt motors the sum of the currents; it never lists u_sup."
  },
  {
   "property": "C117",
   "status": "partial",
   "theorems": [
    "GEM.Props.c117_nominal_partial",
    "GEM.Props.c117_default",
    "GEM.Props.c117_environment",
    "GEM.Props.c117_load_violated",
    "GEM.Props.c117_limit_violated"
   ],
   "note": "Proved for values that fit together after the defaults are filled in (in particular the defaults of all nine classes) and loads whose limits are not below the nominal values. Fails for the load of the docstring of PolynomialStaticLoad (omega=150 with a nominal speed of 300) and for given limits below the default nominal values. The wrapper that the classes of shunt motors add changes only the state i_sum behind the others (C133)."
  },
  {
   "property": "C118",
   "status": "partial",
   "theorems": [
    "GEM.Props.c118_range",
    "GEM.Props.c118_reached",
    "GEM.Props.c118_iff",
    "GEM.Props.c118_default",
    "GEM.Props.c118_environments",
    "GEM.Props.c118_voltages_partial",
    "GEM.Props.c118_voltages_violated",
    "GEM.Props.c118_reset_violated"
   ],
   "note": "Exact: with positive limits the voltages stay in the state space if and only if every voltage limit is at least the peak of the voltage, and every peak is reached in the first step with an action of the action space. With default arguments that holds for the permanently and externally excited and shunt DC motors, the induction motors and the series motor except finite current and torque control; it fails for all environments with permanent magnet, reluctance and externally excited synchronous motors and for Finite-CC/TC-SeriesDc (420 V supply, limit 60 V). After every reset of the synchronous motor environments, except Cont-CC-PMSM and Cont-CC-EESM, the state is outside (phase voltages -210 V). Other supplies than the ideal one are not covered. The wrapper that the classes of shunt motors add changes only the state i_sum behind the others (C133)."
  },
  {
   "property": "C119",
   "status": "partial",
   "theorems": [
    "GEM.Props.c119_finite_partial",
    "GEM.Props.c119_continuous",
    "GEM.Props.c119_violated",
    "GEM.Props.c119_observed",
    "GEM.Props.c119_times",
    "GEM.Props.c119_start",
    "GEM.Props.c119_charge"
   ],
   "note": "Proved for the finite control sets. Violated by the continuous ones: set_action comes before i_sup, so the supply is charged with the new action for the interval that the old one has ruled (c119_continuous gives what it is charged with, c119_violated an action for every flowing current). Missing: interlocking times, loads with more than one state."
  },
  {
   "property": "C12",
   "status": "proved",
   "theorems": [
    "GEM.Props.c12_update",
    "GEM.Props.c12_no_copy"
   ],
   "note": ""
  },
  {
   "property": "C120",
   "status": "partial",
   "theorems": [
    "GEM.Props.c120_without_flux_partial",
    "GEM.Props.c120_range_partial",
    "GEM.Props.c120_chance_violated",
    "GEM.Props.c120_full_flux_violated",
    "GEM.Props.c120_turning_violated",
    "GEM.Props.c120_forward_violated",
    "GEM.Props.c120_seed_violated",
    "GEM.Props.c120_memory_violated",
    "GEM.Props.c120_initial_limits_violated",
    "GEM.Props.c120_incomplete_violated"
   ],
   "note": "true for starts without flux; random starts stay in the nominal range. False otherwise: a constant flux is accepted or refused by an angle drawn from numpy's unseeded generator, refused at every speed with zero currents and at positive speeds with practically all currents, random fluxes depend on that draw and on the currents of the previous start, initial_limits has no effect, dictionaries without currents raise KeyError for turning loads. Loads with one state, no interval"
  },
  {
   "property": "C121",
   "status": "partial",
   "theorems": [
    "GEM.Props.c121_prepared_partial",
    "GEM.Props.c121_reward_violated",
    "GEM.Props.c121_target_violated",
    "GEM.Props.c121_constant_violated",
    "GEM.Props.c121_refusal_violated",
    "GEM.Props.c121_space_violated",
    "GEM.Props.c121_case_violated"
   ],
   "note": "true, except for observation_space, if the user calls g.set_modules beforehand and g references the former states or the reward weights were given. False otherwise: default weights keep rewarding the states of the former generator (towards 0 if g does not reference them), a constant generator without set_modules silently becomes the reference of these states, the other generators raise at every reset, observation_space keeps the former references. Switched generators and processes with a tuple as margin without set_modules are not modelled"
  },
  {
   "property": "C122",
   "status": "partial",
   "theorems": [
    "GEM.Props.c122_loop",
    "GEM.Props.c122_trace",
    "GEM.Props.c122_registered_partial",
    "GEM.Props.c122_finite_violated"
   ],
   "note": "Any environment that always answers (C114, C115) with any controller that answers runs through; instances: all tasks and action types of the DC motors, current control with continuous actions of PMSM, SynRM and EESM. Violated by the synchronous motors with finite actions: the controller is built, the first step raises NotImplementedError (single B6 bridge) or ValueError (EESM). Torque and speed control of AC motors cannot be built in general (C58) and the SCIM needs an observer: not covered. The trace is the one of C57. The wrapper that the classes of shunt motors add changes only the state i_sum behind the others (C133)."
  },
  {
   "property": "C123",
   "status": "partial",
   "theorems": [
    "GEM.Props.c123_current",
    "GEM.Props.c123_permEx",
    "GEM.Props.c123_series",
    "GEM.Props.c123_series_violated",
    "GEM.Props.c123_two",
    "GEM.Props.c123_extEx_speed_violated",
    "GEM.Props.c123_extEx_torque_violated",
    "GEM.Props.c123_shunt_torque_violated",
    "GEM.Props.c123_shunt_sum_violated"
   ],
   "note": "Proved: rewards of all environments for current control (any solver, supply, limits that fit to the nominal values); states and rewards of the six environments with permanently excited DC motor and default parameters (exact solver). Violated in Cont-TC-SeriesDc (state and reward) and Cont-CC-SeriesDc (state): after 300 steps with full voltage the torque is above 1.43 times its limit while the current, the only limited state, is below its limit. Violated in Cont-SC-ExtExDc (state and reward): there are actions after which the speed is above 2.8 times its limit; in Cont-TC-ExtExDc and Cont-TC-ShuntDc (state): there are actions after which the torque is above 1.5 or 1.2 times its limit; both currents stay within their limits. In Cont-TC-ShuntDc the added state i_sum is above 1.5 then (c123_shunt_sum_violated, for the environment with its wrapper). Missing: speed control of series and shunt motors, the finite variants of the violated environments. States of synchronous motors: C118."
  },
  {
   "property": "C124",
   "status": "partial",
   "theorems": [
    "GEM.Props.c124_systems",
    "GEM.Props.c124_values",
    "GEM.Props.c124_environment_partial",
    "GEM.Props.c124_registered",
    "GEM.Props.c124_generators",
    "GEM.Props.c124_remove_violated"
   ],
   "note": "Proved for every stack of wrappers of the package around every registered environment with default arguments, if added names are new, in lower case and their bounds lie around zero. Violated for CosSinProcessor(remove_angle=True): every observation after a reset still has the angle, is shifted behind it and lacks the sine (c124_remove_violated). Zero limits below flux observers are not covered (division by zero), nor are the default reset action of dead times in front of finite multi-converters (C36: not an action) and noise on 'all' states (C39: KeyError). As in C114 the range of rewards needs states inside the state space."
  },
  {
   "property": "C125",
   "status": "partial",
   "theorems": [
    "GEM.Props.c125_continuous",
    "GEM.Props.c125_discrete",
    "GEM.Props.c125_discrete_action",
    "GEM.Props.c125_cascade",
    "GEM.Props.c125_reference",
    "GEM.Props.c125_cascade_discrete",
    "GEM.Props.c125_excited_partial",
    "GEM.Props.c125_excited_discrete",
    "GEM.Props.c125_foc",
    "GEM.Props.c125_switching",
    "GEM.Props.c125_nan_violated",
    "GEM.Props.c125_three_point_violated"
   ],
   "note": "Proved for the current controllers and cascades of DC motors and for field oriented control with continuous actions and with on-off controllers, in all states of the controllers. Violated by the continuous cascade of the externally excited motor, whose armature action is nan whenever the reference of the torque is 0 (c125_nan_violated; c125_excited_partial covers all other references), and by three-point controllers as stages of field oriented control, which answer with action 14 of 8 (c125_three_point_violated). Rounding is not modelled; dimensions of the DFIM controller are not part of it (six actions, np.clip of three)."
  },
  {
   "property": "C126",
   "status": "partial",
   "theorems": [
    "GEM.Props.c126_continuous",
    "GEM.Props.c126_cascade",
    "GEM.Props.c126_excited",
    "GEM.Props.c126_foc",
    "GEM.Props.c126_cascaded_foc",
    "GEM.Props.c126_im_partial",
    "GEM.Props.c126_im_cascaded_partial",
    "GEM.Props.c126_im_violated",
    "GEM.Props.c126_im_modulation",
    "GEM.Props.c126_im_flux",
    "GEM.Props.c126_sync_cascade",
    "GEM.Props.c126_im_cascade_partial"
   ],
   "note": "One bound for all histories of calls, from bounds of states and references: current control of DC motors (with or without exciting circuit), two-stage cascades with continuous stages, cascades of externally excited motors, field oriented current control of synchronous motors, and its cascade with torque or speed control, for every conversion of torques that answers with bounded currents, in particular that of the examples (C130). The flux controller of induction motors and their modulation controller do not wind up either. The anti-windup works although the outer stage of cascades integrates another error than it controls (C127). Induction motors, current control and cascades: as long as the speed is below the one at which the estimation of the flux becomes unstable (C59). Violated at this speed, which is inside the limits: rotating currents let the estimated flux grow, the decoupling grows with it, the integrators make up for it beyond all bounds and the action never saturates (for all gains)."
  },
  {
   "property": "C127",
   "status": "partial",
   "theorems": [
    "GEM.Props.c127_permex_partial",
    "GEM.Props.c127_permex_violated",
    "GEM.Props.c127_series_partial",
    "GEM.Props.c127_armature_partial",
    "GEM.Props.c127_cascade_permex_violated",
    "GEM.Props.c127_cascade_partial",
    "GEM.Props.c127_cascade_negative_violated",
    "GEM.Props.c127_outer_violated",
    "GEM.Props.c127_shift",
    "GEM.Props.c127_shift_optimal",
    "GEM.Props.c127_foc",
    "GEM.Props.c127_cascaded_foc_violated",
    "GEM.Props.c127_reference_violated",
    "GEM.Props.c127_im",
    "GEM.Props.c127_im_voltage"
   ],
   "note": "Exact for field oriented current control of synchronous motors (c127_foc). DC motors: exact if nominal values and limits have the same ratio; otherwise the stated share of the induced voltage remains, a quarter for the default values of the permanently excited motor. Violations: cascades of the permanently excited motor (parameter psie_e does not exist), negative flux in cascades, the outer stage compares the reference with the state of the inner stage, cascaded field oriented control scales i_sd with the limit of u_sd and ignores the reference of i_sq in current control. Induction motors: the same decoupling as in C53, exact for one pole pair only."
  },
  {
   "property": "C128",
   "status": "partial",
   "theorems": [
    "GEM.Props.c128_three_point",
    "GEM.Props.c128_on_off_partial",
    "GEM.Props.c128_on_off_violated",
    "GEM.Props.c128_reset_continuous",
    "GEM.Props.c128_reset_cascade",
    "GEM.Props.c128_reset_discrete_partial",
    "GEM.Props.c128_reset_excited_violated",
    "GEM.Props.c128_reset_foc",
    "GEM.Props.c128_reset_im",
    "GEM.Props.c128_reset_switching_violated"
   ],
   "note": "Three-point controllers: exact characterisation of the answers by the history of errors. On-off controllers compare with the same threshold twice and have no hysteresis. Reset: proved for continuous current control, cascades with any stages, field oriented control with continuous actions, induction motors; violated by discrete current control of the externally excited motor (AttributeError) and by field oriented control with discrete actions (controllers of the phases are not reset)."
  },
  {
   "property": "C129",
   "status": "proved",
   "theorems": [
    "GEM.Props.c129_settles",
    "GEM.Props.c129_permEx",
    "GEM.Props.c129_permEx_euler",
    "GEM.Props.c129_series",
    "GEM.Props.c129_series_decoupled",
    "GEM.Props.c129_classic",
    "GEM.Props.c129_classic_permEx",
    "GEM.Props.c129_classic_series"
   ],
   "note": "The loop of controller and physical system (turn); environments that do not terminate in between show the same observations. Supplies are ideal, converters have no dead time, the speed is constant. Series motors with decoupling need conditions on gain and damping, which the default motor meets."
  },
  {
   "property": "C13",
   "status": "proved",
   "theorems": [
    "GEM.Props.c13_finite",
    "GEM.Props.c13_finite_total",
    "GEM.Props.c13_finite_multi",
    "GEM.Props.c13_cont",
    "GEM.Props.c13_cont_multi"
   ],
   "note": "all finite, continuous and multi converters; every history of set_action/convert/reset/tau changes"
  },
  {
   "property": "C130",
   "status": "partial",
   "theorems": [
    "GEM.Props.c130_im_answers",
    "GEM.Props.c130_im_circle",
    "GEM.Props.c130_im_number_partial",
    "GEM.Props.c130_im_number_violated",
    "GEM.Props.c130_im_torque",
    "GEM.Props.c130_im_reset_partial",
    "GEM.Props.c130_im_reset_violated",
    "GEM.Props.c130_sync_answers_partial",
    "GEM.Props.c130_sync_answers_violated",
    "GEM.Props.c130_sync_torque_partial",
    "GEM.Props.c130_sync_reset_partial",
    "GEM.Props.c130_sync_reset_violated"
   ],
   "note": "Induction motors: every torque has an answer, the currents are within the nominal circle and give a part of the torque. Violated: the answer is nan if the largest flux of the table needs more than the nominal voltage at the nominal speed (the default motor is far enough from that), and a reset does not reset the modulation controller. Synchronous motors: answers within the nominal values for torques up to max_torque; violated beyond it: IndexError. With the online search the torque is exact if the root lies between both curves and the currents are within the nominal values; not shown for tables (C87). Violated: a reset sets the integrator to a value a new conversion does not have. np.roots and griddata are parameters."
  },
  {
   "property": "C131",
   "status": "partial",
   "theorems": [
    "GEM.Props.c131_partial",
    "GEM.Props.c131_foc_violated",
    "GEM.Props.c131_make_violated",
    "GEM.Props.c131_shunt_violated",
    "GEM.Props.c131_wrapped_violated",
    "GEM.Props.c131_answer_violated",
    "GEM.Props.c131_gains_partial",
    "GEM.Props.c131_gains_violated"
   ],
   "note": "Exact table over all environments and settings. Violated: current control of synchronous motors never (converters have no _dead_time), of shunt motors never (the constructors assert an unwrapped DcMotorSystem, the environments have a CurrentSumProcessor around it); finite actions of ExtEx in current control and of synchronous motors in speed control (argument _controllers forgotten), of the SCIM and the EESM; the controllers made for EESM and DFIM answer with too few voltages or raise; what gem.make returns is not recognised as ExtEx environment (no current control; the excitation current gets the gains of the speed, the speed none); with gymnasium 1.0 only torque and speed control of DC motors is left. Stages of the user: C134."
  },
  {
   "property": "C132",
   "status": "partial",
   "theorems": [
    "GEM.Props.c132_partial",
    "GEM.Props.c132_violated"
   ],
   "note": "Within an episode the controller sees the last observation. Violated at the start of every episode but the first: the scripts drop what env.reset() returns, and the controller acts on the last observation of the episode before."
  },
  {
   "property": "C133",
   "status": "partial",
   "theorems": [
    "GEM.Props.c133_unchanged_partial",
    "GEM.Props.c133_registered",
    "GEM.Props.c133_violated",
    "GEM.Props.enlarges_sub",
    "GEM.Props.enlarges_const",
    "GEM.Props.enlarges_zero",
    "GEM.Props.enlarges_multi",
    "GEM.Props.enlarges_switched"
   ],
   "note": "Proved for weights and powers given by name (or default), constraints by name and the generators of the package. Violated by the constraint 'all_states': the sum of the currents then ends episodes that go on without it. c133_registered: every registered environment answers like the one without the CurrentSumProcessor of the shunt classes, so the claims about the latter (C03, C04, C117, C118, C122, C123) carry over."
  },
  {
   "property": "C134",
   "status": "partial",
   "theorems": [
    "GEM.Props.c134_partial",
    "GEM.Props.c134_shunt_violated",
    "GEM.Props.c134_scim_violated"
   ],
   "note": "Proved for all controllers that can be made, except shunt motors and current control of induction motors. Violated: find_controller_type looks at the physical system with its wrappers, so for shunt motors (CurrentSumProcessor) no branch matches and every call with stages raises UnboundLocalError; for current control of induction motors the field oriented controller needs a superfluous second stage, the designed stages make the cascaded one, which raises. Names and dictionaries for three-phase motors are not modelled."
  },
  {
   "property": "C135",
   "status": "partial",
   "theorems": [
    "GEM.Props.c135_sync",
    "GEM.Props.c135_eesm",
    "GEM.Props.c135_scim_partial",
    "GEM.Props.c135_dfim_partial",
    "GEM.Props.c135_scim_field",
    "GEM.Props.c135_scim_no_flux"
   ],
   "note": "Euler solver, fresh converters (a reset keeps the switching state of half bridges, C19), limits equal for the three phases. All entries for PMSM, SynRM and EESM. For induction motors all entries but those in field coordinates over whole histories; these follow for the squirrel cage motor in every single report if the flux does not vanish before the step, and differ without flux, since the angle of a vanishing flux is taken to be 0 (c135_scim_no_flux). Missing: dq actions of induction motors, three-phase supplies, other solvers."
  },
  {
   "property": "C136",
   "status": "partial",
   "theorems": [
    "GEM.Props.c136_sync",
    "GEM.Props.c136_scim",
    "GEM.Props.c136_dfim",
    "GEM.Props.c136_eesm_partial",
    "GEM.Props.c136_one",
    "GEM.Props.c136_shunt",
    "GEM.Props.c136_extEx"
   ],
   "note": "Euler solver, fresh converters (a reset keeps the switching state of half bridges, C19), limits equal for the phases b and c. For the EESM without the entries u_sq and u_e, which a reset interchanges (C34). Missing: dq actions of the EESM and of the doubly fed motor, three-phase supplies, other solvers."
  },
  {
   "property": "C137",
   "status": "partial",
   "theorems": [
    "GEM.Props.c137_permEx",
    "GEM.Props.c137_series",
    "GEM.Props.c137_shunt",
    "GEM.Props.c137_extEx",
    "GEM.Props.c137_sync",
    "GEM.Props.c137_sync_drive",
    "GEM.Props.c137_eesm",
    "GEM.Props.c137_eesm_drive",
    "GEM.Props.c137_scim",
    "GEM.Props.c137_online_partial",
    "GEM.Props.c137_online_violated"
   ],
   "note": "Controllers as freshly built or reset, exact arithmetic, conditions of C136 for the drives. The operation points are odd unless the torque lies midway between two rows of the table; Python's rounding half to even breaks it there: with the 250 rows of the default a torque reference of 0 gets the current of torque -maxTorque/249 (c137_online_violated). Missing: closed loops of torque and speed control of three-phase motors (only through the operation points), closed loop of the SCIM with its flux observer, analytical tables; beyond maxTorque only the positive direction raises (C88)."
  },
  {
   "property": "C138",
   "status": "partial",
   "theorems": [
    "GEM.Props.c138_converters",
    "GEM.Props.c138_dc",
    "GEM.Props.c138_scim_partial",
    "GEM.Props.c138_sync_violated"
   ],
   "note": "Proved for the DC motors (all states) and the SCIM (states outside field coordinates, whose angle is that before the last integration, C34), with loads whose equation does not depend on time, a supply with constant voltage and converters whose output follows from the action alone (no interlocking time; not the one quadrant converters, nor the two quadrant converter with open switches). Violated by synchronous motors: their voltages are transformed once per step with the angle at its beginning, so that they turn with the rotor during the step (c138_sync_violated: different i_sd for every PMSM). Missing: DFIM, whose rotor voltages are transformed in the same way, SciPy solvers."
  },
  {
   "property": "C139",
   "status": "partial",
   "theorems": [
    "GEM.Props.c139_converters",
    "GEM.Props.c139_dc",
    "GEM.Props.c139_sync",
    "GEM.Props.c139_eesm",
    "GEM.Props.c139_scim_violated",
    "GEM.Props.c139_interlock_violated"
   ],
   "note": "Proved for DC motors, PMSM, SynRM and EESM with the Euler solver, an ideal supply, static loads and converters without memory (c139_converters). Fails for the squirrel cage motor (flux not observed) and for half bridges with interlocking time (position not observed). DFIM, other solvers and the RC supply not treated; exact arithmetic."
  },
  {
   "property": "C14",
   "status": "proved",
   "theorems": [
    "GEM.Props.c14_no_shoot_through"
   ],
   "note": "hardware monitor automaton never fires in any protocol-conforming history"
  },
  {
   "property": "C140",
   "status": "partial",
   "theorems": [
    "GEM.Props.c140_scim",
    "GEM.Props.c140_shunt",
    "GEM.Props.c140_permex",
    "GEM.Props.c140_synrm"
   ],
   "note": "Missing: supplies whose voltage depends on the current (RC supply: the general system draws another current); (b) converters with interlocking time and one quadrant converters, (c) solvers other than the Euler solver, (a) control in dq coordinates (the doubly fed system has none)."
  },
  {
   "property": "C141",
   "status": "proved",
   "theorems": [
    "GEM.Props.c141_limits"
   ],
   "note": "Exact arithmetic. Constraint monitors and reward functions compare normalised values and are not part of this statement; limits that the motor computes at construction are an input here."
  },
  {
   "property": "C142",
   "status": "partial",
   "theorems": [
    "GEM.Props.c142_dc",
    "GEM.Props.c142_actions",
    "GEM.Props.c142_sync",
    "GEM.Props.c142_eesm",
    "GEM.Props.c142_eesm_converter",
    "GEM.Props.c142_scim_partial",
    "GEM.Props.c142_torque_violated"
   ],
   "note": "Euler solver, constant speed, fixed supply voltage, no interlocking time. Missing: dq states and dq actions of the squirrel cage motor (the field angle is not linear), the doubly fed motor, other solvers. The torque of motors other than the permanently excited one is refuted for the series motor (c142_torque_violated)."
  },
  {
   "property": "C143",
   "status": "partial",
   "theorems": [
    "GEM.Props.c143_legal",
    "GEM.Props.c143_hexagon",
    "GEM.Props.c143_prediction",
    "GEM.Props.c143_start",
    "GEM.Props.c143_voltage",
    "GEM.Props.c143_exact_partial",
    "GEM.Props.c143_notebook_violated"
   ],
   "note": "legal actions for every answer of the optimiser, the limitations and equations given to it, and the voltage that reaches the motor are proved for the whole PMSM system with any static load and Euler solver; the voltage is exact only if the phase limit is half of the supply voltage, the notebook violates this (8/9 of every voltage). The optimiser itself (GEKKO) is a parameter."
  },
  {
   "property": "C144",
   "status": "partial",
   "theorems": [
    "GEM.Props.c144_current_partial",
    "GEM.Props.c144_current_violated",
    "GEM.Props.c144_constraint",
    "GEM.Props.c144_feature",
    "GEM.Props.c144_feature_faithful",
    "GEM.Props.c144_last_action",
    "GEM.Props.c144_logger",
    "GEM.Props.c144_logger_violated"
   ],
   "note": "CurrentVectorProcessor appends the absolute value of i_sq times the square root of 2 (violated); the cookbook's logger begins with nan (violated). Agents, training and the notebooks' paths are not modelled."
  },
  {
   "property": "C145",
   "status": "partial",
   "theorems": [
    "GEM.Props.c145_grid",
    "GEM.Props.c145_fraction_violated",
    "GEM.Props.c145_time_violated"
   ],
   "note": "The amplitude is a fraction of half of the DC link's voltage and the recorded times are one sampling time too small (both violated); the plots are not modelled."
  },
  {
   "property": "C146",
   "status": "partial",
   "theorems": [
    "GEM.Props.c146_reset",
    "GEM.Props.c146_sync_forgets",
    "GEM.Props.c146_im_violated",
    "GEM.Props.c146_torque",
    "GEM.Props.c146_sync_flux",
    "GEM.Props.c146_im_flux",
    "GEM.Props.c146_gains",
    "GEM.Props.c146_multi_reset",
    "GEM.Props.c146_discrete_reset"
   ],
   "note": "Induction motors: violated, the integrated modulation survives a reset. Cascaded controllers with discrete actions of synchronous motors: c146_discrete_reset."
  },
  {
   "property": "C147",
   "status": "partial",
   "theorems": [
    "GEM.Props.c147_sync",
    "GEM.Props.c147_scim",
    "GEM.Props.c147_eesm",
    "GEM.Props.c147_dfim",
    "GEM.Props.c147_seven_suffice",
    "GEM.Props.c147_no_fewer",
    "GEM.Props.c147_seven",
    "GEM.Props.c147_dfim_seven",
    "GEM.Props.c147_dfim_converter",
    "GEM.Props.c147_forgotten",
    "GEM.Props.c147_duties"
   ],
   "note": "Converters without interlocking time, supplies of fixed voltage, loads whose equation does not depend on time, Euler solver. That only 0 and 7 are interchangeable is proved for whole PMSM and SynRM systems and for the voltages of the doubly fed motor."
  },
  {
   "property": "C148",
   "status": "partial",
   "theorems": [
    "GEM.Props.c148_band",
    "GEM.Props.c148_ramp",
    "GEM.Props.c148_exists",
    "GEM.Props.c148_motions",
    "GEM.Props.c148_range",
    "GEM.Props.c148_periodic",
    "GEM.Props.c148_start_partial",
    "GEM.Props.c148_start_violated",
    "GEM.Props.c148_example"
   ],
   "note": "The comment \"inital value is given by bias of the profile\" is violated by the triangle and sawtooth profiles. scipy.signal.sawtooth is modelled after its documentation; solver errors are not covered here (one Euler step per sampling time: C26)."
  },
  {
   "property": "C149",
   "status": "partial",
   "theorems": [
    "GEM.Props.c149_uniform_partial",
    "GEM.Props.c149_uniform_violated",
    "GEM.Props.c149_normal_partial",
    "GEM.Props.c149_fixed_violated"
   ],
   "note": "proved for intervals that meet the nominal range; violated for intervals above the nominal speed and for omega_fixed; the sampler of scipy is a parameter that obeys RvsSpec"
  },
  {
   "property": "C15",
   "status": "partial",
   "theorems": [
    "GEM.Props.c15_partition_partial",
    "GEM.Props.c15_multi_partial",
    "GEM.Props.c15_after_tau_change_violated"
   ],
   "note": "proved for histories that do not change tau after construction; after a change of tau the bridges violate it (proved)"
  },
  {
   "property": "C150",
   "status": "partial",
   "theorems": [
    "GEM.Props.c150_lines_partial",
    "GEM.Props.c150_newest_violated",
    "GEM.Props.c150_shifted_violated",
    "GEM.Props.c150_total",
    "GEM.Props.c150_refs",
    "GEM.Props.c150_second_violated",
    "GEM.Props.c150_action_violated",
    "GEM.Props.c150_action_partial"
   ],
   "note": "Proved for referenced plots at all shown times but the newest. Violated at the newest time of a full plot (data one plot width old), by the additional lines of plots without reference (shifted by one) and by a second plot of the same state (never gets a reference). Controllers with a single stage raise a TypeError as soon as they have a plot for references (they pass no data)."
  },
  {
   "property": "C151",
   "status": "partial",
   "theorems": [
    "GEM.Props.c151_names",
    "GEM.Props.c151_order_partial",
    "GEM.Props.c151_found_partial",
    "GEM.Props.c151_nested_violated", "GEM.Props.c151_exact", "GEM.Props.c151_distinct", "GEM.Props.c151_attached_partial"
   ],
   "note": "order of the states proved for all accepted generators whenever the controller can be made; nested generators and those without reference make the construction raise (violated); with constant generators the order follows from the assertions of set_modules (c151_attached_partial); their names are strings (C76) and left out of c151_names"
  },
  {
   "property": "C16",
   "status": "proved",
   "theorems": [
    "GEM.Props.c16_two",
    "GEM.Props.c16_finite",
    "GEM.Props.c16_cont"
   ],
   "note": ""
  },
  {
   "property": "C17",
   "status": "proved",
   "theorems": [
    "GEM.Props.two_settled",
    "GEM.Props.c17_two",
    "GEM.Props.c17_four",
    "GEM.Props.c17_b6",
    "GEM.Props.c17_b6_injective"
   ],
   "note": ""
  },
  {
   "property": "C18",
   "status": "proved",
   "theorems": [
    "GEM.Props.c18_convert",
    "GEM.Props.c18_iSup",
    "GEM.Props.c18_setAction",
    "GEM.Props.c18_independent",
    "GEM.Props.c18_cont_setAction",
    "GEM.Props.c18_cont_convert",
    "GEM.Props.c18_cont_iSup"
   ],
   "note": ""
  },
  {
   "property": "C19",
   "status": "partial",
   "theorems": [
    "GEM.Props.c19_reset_forgets_violated",
    "GEM.Props.c19_two_partial",
    "GEM.Props.c19_cont",
    "GEM.Props.c19_one"
   ],
   "note": "the code violates it for finite converters built from half bridges (witness proved); proved for the one-quadrant and all continuous converters and, without interlocking, after the first applied action"
  },
  {
   "property": "C20",
   "status": "partial",
   "theorems": [
    "GEM.Props.c20_tau_violated",
    "GEM.Props.c20_elementary_partial",
    "GEM.Props.c20_multi_partial"
   ],
   "note": "the code violates it for the bridges (witness proved); proved for one- and two-quadrant converters, alone and in multi converters"
  },
  {
   "property": "C21",
   "status": "proved",
   "theorems": [
    "GEM.Props.c21_saturates",
    "GEM.Props.c21_duty"
   ],
   "note": ""
  },
  {
   "property": "C22",
   "status": "proved",
   "theorems": [
    "GEM.Props.c22_range",
    "GEM.Props.c22_reset",
    "GEM.Props.c22_no_load",
    "GEM.Props.c22_constant_load",
    "GEM.Props.c22_monotone",
    "GEM.Props.c22_converges"
   ],
   "note": "Exact real arithmetic."
  },
  {
   "property": "C23",
   "status": "proved",
   "theorems": [
    "GEM.Props.c23_single_bound",
    "GEM.Props.c23_single_range",
    "GEM.Props.c23_three_range",
    "GEM.Props.c23_periodic",
    "GEM.Props.c23_balanced",
    "GEM.Props.c23_shifted",
    "GEM.Props.c23_reset"
   ],
   "note": ""
  },
  {
   "property": "C24",
   "status": "partial",
   "theorems": [
    "GEM.Props.c24_one_step",
    "GEM.Props.c24_time",
    "GEM.Props.c24_nsteps_shifted",
    "GEM.Props.c24_autonomous_partial",
    "GEM.Props.c24_constant_exact",
    "GEM.Props.c24_times_violated"
   ],
   "note": "Holds for nsteps=1 and for time independent right-hand sides. For nsteps >= 2 the code evaluates the right-hand side only after the end of the interval (c24_times_violated)."
  },
  {
   "property": "C25",
   "status": "proved",
   "theorems": [
    "GEM.Props.c25_friction",
    "GEM.Props.c25_odd",
    "GEM.Props.c25_monotone",
    "GEM.Props.c25_opposes",
    "GEM.Props.c25_coasting",
    "GEM.Props.c25_continuous"
   ],
   "note": ""
  },
  {
   "property": "C26",
   "status": "partial",
   "theorems": [
    "GEM.Props.c26_constant_speed",
    "GEM.Props.c26_constant_speed_exact",
    "GEM.Props.c26_external_speed",
    "GEM.Props.c26_external_interlocking_violated",
    "GEM.Props.c26_ou_violated",
    "GEM.Props.c26_ou_range_partial"
   ],
   "note": "Constant and external speed as claimed. OrnsteinUhlenbeckLoad can never be constructed (c26_ou_violated)."
  },
  {
   "property": "C27",
   "status": "partial",
   "theorems": [
    "GEM.Props.c27_extex",
    "GEM.Props.c27_shunt",
    "GEM.Props.c27_series",
    "GEM.Props.c27_permex",
    "GEM.Props.c27_pmsm",
    "GEM.Props.c27_synrm",
    "GEM.Props.c27_eesm",
    "GEM.Props.c27_dfim",
    "GEM.Props.c27_scim",
    "GEM.Props.c27_load_partial",
    "GEM.Props.c27_load_torque",
    "GEM.Props.c27_load_standstill_violated",
    "GEM.Props.c27_const_load"
   ],
   "note": "All motor Jacobians are exact at every state. The polynomial load Jacobian is exact at every speed except standstill with a friction coefficient, where the code returns a one-sided value (violated)."
  },
  {
   "property": "C28",
   "status": "proved",
   "theorems": [
    "GEM.Props.c28_extex",
    "GEM.Props.c28_shunt",
    "GEM.Props.c28_series",
    "GEM.Props.c28_permex",
    "GEM.Props.c28_pmsm",
    "GEM.Props.c28_synrm",
    "GEM.Props.c28_eesm",
    "GEM.Props.c28_dfim",
    "GEM.Props.c28_scim"
   ],
   "note": "Along every differentiable solution of the motor equation."
  },
  {
   "property": "C29",
   "status": "partial",
   "theorems": [
    "GEM.Props.c29_dc",
    "GEM.Props.c29_series",
    "GEM.Props.c29_permex",
    "GEM.Props.c29_pmsm_partial",
    "GEM.Props.c29_pmsm_attained",
    "GEM.Props.c29_pmsm_round",
    "GEM.Props.c29_pmsm_nominal_violated",
    "GEM.Props.c29_pmsm_ld_gt_lq_violated",
    "GEM.Props.c29_synrm_partial",
    "GEM.Props.c29_synrm_violated",
    "GEM.Props.c29_eesm_partial",
    "GEM.Props.c29_eesm_violated",
    "GEM.Props.c29_im_steady_partial",
    "GEM.Props.c29_im_transient_partial",
    "GEM.Props.c29_im_violated"
   ],
   "note": "DC motors covered. PMSM covered for nominal currents and l_d <= l_q only, SynRM for l_d >= l_q, EESM without saliency, induction motors for steady state fluxes; every other case has a counterexample."
  },
  {
   "property": "C30",
   "status": "partial",
   "theorems": [
    "GEM.Props.c30_insertion_order",
    "GEM.Props.c30_complete_partial",
    "GEM.Props.c30_prefix_partial",
    "GEM.Props.c30_sync_violated",
    "GEM.Props.c30_angle_violated",
    "GEM.Props.c30_eesm_violated",
    "GEM.Props.c30_checked"
   ],
   "note": "Violated: values are placed in the order the dictionary was written, so a synchronous motor initialised in the order of its own class default gets i_sd and i_sq exchanged. Proved for dictionaries written in ODE order, and that out of range constants are refused."
  },
  {
   "property": "C31",
   "status": "partial",
   "theorems": [
    "GEM.Props.c31_load_partial",
    "GEM.Props.c31_const_violated",
    "GEM.Props.c31_const_zero_violated",
    "GEM.Props.c31_const_alone",
    "GEM.Props.c31_poly_violated",
    "GEM.Props.c31_motor",
    "GEM.Props.c31_motor_separate",
    "GEM.Props.c31_scim_violated",
    "GEM.Props.c31_scim_partial",
    "GEM.Props.c31_supply_violated",
    "GEM.Props.c31_supply_partial",
    "GEM.Props.c31_env_violated",
    "GEM.Props.c31_reused_load_violated",
    "GEM.Props.c31_scratch",
    "GEM.Props.c31_classes"
   ],
   "note": "Holds for the initial states of motors, for loads with different initial state dictionaries and for the scratch array of the permanently excited motor. Violated for loads with default initial states, squirrel cage limits after a doubly fed motor, AC supplies built from one dictionary, the sampling time in env.sim and a load used in two systems. Other class level data of wrappers, visualization and controllers are not modelled."
  },
  {
   "property": "C32",
   "status": "proved",
   "theorems": [
    "GEM.Props.c32_t23_t32",
    "GEM.Props.c32_t32_t23",
    "GEM.Props.c32_t32_zero_sum",
    "GEM.Props.c32_q_add",
    "GEM.Props.c32_q_inv",
    "GEM.Props.c32_q_inv_me",
    "GEM.Props.c32_q_length",
    "GEM.Props.c32_round_trip",
    "GEM.Props.c32_balanced",
    "GEM.Props.c32_power",
    "GEM.Props.c32_normed",
    "GEM.Props.c32_spaces"
   ],
   "note": ""
  },
  {
   "property": "C33",
   "status": "partial",
   "theorems": [
    "GEM.Props.c33_range",
    "GEM.Props.c33_turns",
    "GEM.Props.c33_unique",
    "GEM.Props.c33_reset_partial",
    "GEM.Props.c33_reset_violated"
   ],
   "note": "simulate wraps every real angle; reset only subtracts one turn, so an initial angle above 3*pi or at most -pi is reported outside the interval."
  },
  {
   "property": "C34",
   "status": "partial",
   "theorems": [
    "GEM.Props.c34_dc",
    "GEM.Props.c34_sync_partial",
    "GEM.Props.c34_sync_iff",
    "GEM.Props.c34_sync_violated",
    "GEM.Props.c34_sync_reset",
    "GEM.Props.c34_eesm_partial",
    "GEM.Props.c34_eesm_reset_violated",
    "GEM.Props.c34_eesm_reset_partial",
    "GEM.Props.c34_eesm_interlock_violated",
    "GEM.Props.c34_scim_partial",
    "GEM.Props.c34_scim_violated",
    "GEM.Props.c34_scim_reset",
    "GEM.Props.c34_dfim_partial",
    "GEM.Props.c34_dfim_reset_violated",
    "GEM.Props.c34_dfim_converter_violated",
    "GEM.Props.c34_sync_indices",
    "GEM.Props.c34_im_indices"
   ],
   "note": "Every quantity is at its name except for the reset of the EESM (voltages interchanged). simulate computes phase currents (synchronous) or dq currents (induction) with the angle before the last integration: exact conditions given. The reset of the DFIM uses other rotor coordinates than simulate. An EESM with interlocking raises in every such step."
  },
  {
   "property": "C35",
   "status": "proved",
   "theorems": [
    "GEM.Props.c35_step",
    "GEM.Props.c35_time",
    "GEM.Props.c35_scaled",
    "GEM.Props.c35_euler"
   ],
   "note": "For all systems at once; solver assumed to honour its end time, shown for the Euler solver."
  },
  {
   "property": "C36",
   "status": "partial",
   "theorems": [
    "GEM.Props.c36_delay",
    "GEM.Props.c36_arrival",
    "GEM.Props.c36_default_partial",
    "GEM.Props.c36_history_partial",
    "GEM.Props.c36_order_violated",
    "GEM.Props.c36_length",
    "GEM.Props.c36_no_action",
    "GEM.Props.c36_stack",
    "GEM.Props.c36_default_action",
    "GEM.Props.c36_multi_violated"
   ],
   "note": "Commanded actions arrive exactly n steps late in every execution. Reset actions given by the user are applied in reverse order (violated), constant ones (the default) correctly. The default reset action is not an action of multi-discrete spaces (violated)."
  },
  {
   "property": "C37",
   "status": "partial",
   "theorems": [
    "GEM.Props.c37_simulate",
    "GEM.Props.c37_reset",
    "GEM.Props.c37_circle",
    "GEM.Props.c37_angle_partial",
    "GEM.Props.c37_scale_violated",
    "GEM.Props.c37_keep",
    "GEM.Props.c37_remove_partial",
    "GEM.Props.c37_reset_violated",
    "GEM.Props.c37_names",
    "GEM.Props.c37_missing"
   ],
   "note": "Holds if the limit of the angle is pi and the angle is kept. With remove_angle=True every reset returns one entry too many (violated); with another limit the angle is wrong (violated)."
  },
  {
   "property": "C38",
   "status": "partial",
   "theorems": [
    "GEM.Props.c38_value",
    "GEM.Props.c38_max_partial",
    "GEM.Props.c38_sum_violated",
    "GEM.Props.c38_range_violated",
    "GEM.Props.c38_limit",
    "GEM.Props.c38_bound",
    "GEM.Props.c38_empty"
   ],
   "note": "Value times limit is the physical sum only for limit='max' and equal limits. For limit='sum' the value is not rescaled (violated)."
  },
  {
   "property": "C39",
   "status": "partial",
   "theorems": [
    "GEM.Props.c39_noise_partial",
    "GEM.Props.c39_all_violated",
    "GEM.Props.c39_twice_violated",
    "GEM.Props.c39_before_reset",
    "GEM.Props.c39_length_violated",
    "GEM.Props.c39_seed_violated"
   ],
   "note": "Proved for selections by name without repetition and positive buffer length, over any number of steps and resets. states='all' raises KeyError and the seed has no influence on the noise (violated)."
  },
  {
   "property": "C40",
   "status": "partial",
   "theorems": [
    "GEM.Props.c40_memory",
    "GEM.Props.c40_classic",
    "GEM.Props.c40_eesm",
    "GEM.Props.c40_dfim",
    "GEM.Props.c40_mid_interval",
    "GEM.Props.c40_before_reset",
    "GEM.Props.c40_two_dead_violated",
    "GEM.Props.c40_slip_violated"
   ],
   "note": "Proved for all three processors with the dead time of the next dead-time processor inside. Of two dead-time processors only one counts, and for induction machines the slip is ignored (violated)."
  },
  {
   "property": "C41",
   "status": "proved",
   "theorems": [
    "GEM.Props.c41_margin",
    "GEM.Props.c41_space",
    "GEM.Props.c41_initial",
    "GEM.Props.c41_constant"
   ],
   "note": "every generator class, every history, every outcome of the draws, also while a callback widens the margin"
  },
  {
   "property": "C42",
   "status": "proved",
   "theorems": [
    "GEM.Props.c42_stream",
    "GEM.Props.c42_no_error",
    "GEM.Props.c42_steady",
    "GEM.Props.c42_zero_length",
    "GEM.Props.c42_needs_reset"
   ],
   "note": "The observations are exactly the sub-episodes in a row. Lengths of at least 1 are needed: with episode_lengths=0 the reset raises an IndexError."
  },
  {
   "property": "C43",
   "status": "proved",
   "theorems": [
    "GEM.Props.c43_superposition",
    "GEM.Props.c43_reset",
    "GEM.Props.c43_total",
    "GEM.Props.c43_nested",
    "GEM.Props.c43_overlap",
    "GEM.Props.c43_overlap_error",
    "GEM.Props.c43_observation",
    "GEM.Props.c43_honest"
   ],
   "note": "For sub-generators that are zero outside their referenced states, which holds for all generators of the package (c43_honest) and again for combinations (c43_nested)."
  },
  {
   "property": "C44",
   "status": "partial",
   "theorems": [
    "GEM.Props.c44_episode",
    "GEM.Props.c44_switch",
    "GEM.Props.c44_handover",
    "GEM.Props.c44_length",
    "GEM.Props.c44_bounds",
    "GEM.Props.c44_space",
    "GEM.Props.c44_first_violated"
   ],
   "note": "Holds, except for the length: the generator selected by a reset is used for one reference more than the drawn length (c44_first_violated)."
  },
  {
   "property": "C45",
   "status": "partial",
   "theorems": [
    "GEM.Props.c45_range",
    "GEM.Props.c45_total",
    "GEM.Props.c45_formula",
    "GEM.Props.c45_ends",
    "GEM.Props.c45_default",
    "GEM.Props.c45_positive",
    "GEM.Props.c45_violation_violated"
   ],
   "note": "range, both ends and formula for violation degree 0 proved for all inputs; a violated constraint is rewarded below reward_range (c45_violation_violated)"
  },
  {
   "property": "C46",
   "status": "partial",
   "theorems": [
    "GEM.Props.c46_return_partial",
    "GEM.Props.c46_monotone",
    "GEM.Props.c46_soft_violated"
   ],
   "note": "proved for agents with violation degree 0 until termination; for soft constraints (degree strictly between 0 and 1) full violation can pay (c46_soft_violated)"
  },
  {
   "property": "C47",
   "status": "partial",
   "theorems": [
    "GEM.Props.c47_margin_partial",
    "GEM.Props.c47_widens_partial",
    "GEM.Props.c47_reaches_partial",
    "GEM.Props.c47_shrinks_violated",
    "GEM.Props.c47_negative_violated",
    "GEM.Props.c47_zero_violated",
    "GEM.Props.c47_accepts"
   ],
   "note": "closed form, monotonicity, bound and reaching of the maximum for an initial margin inside the maximum, step size >= 0 and update_freq != 0; the constructor accepts other values, for which it fails"
  },
  {
   "property": "C48",
   "status": "partial",
   "theorems": [
    "GEM.Props.c48_absolute",
    "GEM.Props.c48_absolute_margin",
    "GEM.Props.c48_squared_partial",
    "GEM.Props.c48_squared_margin_violated",
    "GEM.Props.c48_combined"
   ],
   "note": "the squared stage keeps the limit itself, but forgets the margin"
  },
  {
   "property": "C49",
   "status": "partial",
   "theorems": [
    "GEM.Props.c49_returned_violated",
    "GEM.Props.c49_stored_partial",
    "GEM.Props.c49_returned_partial",
    "GEM.Props.c49_torque",
    "GEM.Props.c49_current"
   ],
   "note": "the voltage stored for the anti-windup is clipped; the returned one is the unclipped one"
  },
  {
   "property": "C50",
   "status": "proved",
   "theorems": [
    "GEM.Props.c50_current",
    "GEM.Props.c50_pi_law",
    "GEM.Props.c50_speed"
   ],
   "note": ""
  },
  {
   "property": "C51",
   "status": "partial",
   "theorems": [
    "GEM.Props.c51_reset_partial",
    "GEM.Props.c51_pid_violated",
    "GEM.Props.c51_pid_partial",
    "GEM.Props.c51_current_partial",
    "GEM.Props.c51_modulation"
   ],
   "note": "the derivative part of the PID controller keeps the error of the previous episode"
  },
  {
   "property": "C52",
   "status": "partial",
   "theorems": [
    "GEM.Props.c52_three_point",
    "GEM.Props.c52_three_point_tuned",
    "GEM.Props.c52_output_partial",
    "GEM.Props.c52_levels",
    "GEM.Props.c52_output_violated"
   ],
   "note": "the discrete output stage raises for B6 and EESM converters"
  },
  {
   "property": "C53",
   "status": "partial",
   "theorems": [
    "GEM.Props.c53_series",
    "GEM.Props.c53_shunt",
    "GEM.Props.c53_extex_violated",
    "GEM.Props.c53_extex_excitation",
    "GEM.Props.c53_permex_violated",
    "GEM.Props.c53_pmsm",
    "GEM.Props.c53_synrm",
    "GEM.Props.c53_eesm_q",
    "GEM.Props.c53_eesm_violated",
    "GEM.Props.c53_scim_partial",
    "GEM.Props.c53_scim_one_pair",
    "GEM.Props.c53_scim_violated"
   ],
   "note": "holds for series and shunt (armature), PMSM, SynRM, the q axis of the EESM and induction motors with one pole pair"
  },
  {
   "property": "C54",
   "status": "partial",
   "theorems": [
    "GEM.Props.c54_torque",
    "GEM.Props.c54_torque_eesm",
    "GEM.Props.c54_flux_partial",
    "GEM.Props.c54_flux",
    "GEM.Props.c54_flux_violated",
    "GEM.Props.c54_flux_eesm_violated"
   ],
   "note": "the torque is exact for every root; the flux is exact only without magnet, with equal inductances or with direct current 0; the missing part is false in the code (wrong coefficients)"
  },
  {
   "property": "C55",
   "status": "proved",
   "theorems": [
    "GEM.Props.c55",
    "GEM.Props.c55_current",
    "GEM.Props.c55_flux",
    "GEM.Props.c55_speed"
   ],
   "note": ""
  },
  {
   "property": "C56",
   "status": "partial",
   "theorems": [
    "GEM.Props.c56_partial",
    "GEM.Props.c56_violated",
    "GEM.Props.c56_losses"
   ],
   "note": "the row combines i_sq of the optimum with the i_sd of the sample before it; its torque is k/(k+1) of the wanted one"
  },
  {
   "property": "C57",
   "status": "partial",
   "theorems": [
    "GEM.Props.c57_length_partial",
    "GEM.Props.c57_first_violated",
    "GEM.Props.c57_later",
    "GEM.Props.c57_unlimited",
    "GEM.Props.c57_together",
    "GEM.Props.c57_fresh",
    "GEM.Props.c57_steps"
   ],
   "note": "The first episode may last m + 1 steps (counter starts at -1 relative to later episodes); later ones at most m. Resets happen together; the controller always sees the newest observation."
  },
  {
   "property": "C58",
   "status": "partial",
   "theorems": [
    "GEM.Props.c58_partial",
    "GEM.Props.c58_threePoint_violated",
    "GEM.Props.c58_speed_violated",
    "GEM.Props.c58_torque_violated"
   ],
   "note": "c58_partial states exactly which combinations can be made; the three point controller and non-PI speed controllers never can, nor torque and speed control of PMSM, SynRM and SCIM."
  },
  {
   "property": "C59",
   "status": "partial",
   "theorems": [
    "GEM.Props.c59_step",
    "GEM.Props.c59_reset",
    "GEM.Props.c59_range",
    "GEM.Props.c59_history",
    "GEM.Props.c59_standstill",
    "GEM.Props.c59_free",
    "GEM.Props.c59_bounds_violated",
    "GEM.Props.c59_bounded_violated"
   ],
   "note": "Update, reset and ranges proved for all histories. Missing: the announced state space bounds do not fit the normalised values (violated), and the Euler step diverges at high speed (violated)."
  },
  {
   "property": "C60",
   "status": "proved",
   "theorems": [
    "GEM.Props.c60_scratch",
    "GEM.Props.c60_separate",
    "GEM.Props.c60_jacobian",
    "GEM.Props.c60_poly"
   ],
   "note": "For every load and motor whose own Jacobians are right (C27); applied to the polynomial load."
  },
  {
   "property": "C61",
   "status": "partial",
   "theorems": [
    "GEM.Props.c61_changeover_violated",
    "GEM.Props.c61_changeover_partial"
   ],
   "note": "the code violates it for every interlocked change-over (general negation proved); the commanded switch conducts from the next interval on"
  },
  {
   "property": "C62",
   "status": "partial",
   "theorems": [
    "GEM.Props.c62_passive_violated",
    "GEM.Props.c62_passive_partial"
   ],
   "note": "proved for the two-quadrant converter and the B6 bridge; violated by the continuous four-quadrant converter (witness proved)"
  },
  {
   "property": "C63",
   "status": "partial",
   "theorems": [
    "GEM.Props.c63_failed_reset_violated",
    "GEM.Props.c63_completed_reset_partial"
   ],
   "note": "false for raising resets"
  },
  {
   "property": "C64",
   "status": "partial",
   "theorems": [
    "GEM.Props.c64_streams_distinct",
    "GEM.Props.c64_episodes_distinct",
    "GEM.Props.c74_wiener_violated"
   ],
   "note": "Distinct streams for all components, and a new stream for every component at every reset. The Wiener process generator still draws the initial reference of an episode from the stream of the previous episode (c74_wiener_violated), so that the second half holds for all components but this one."
  },
  {
   "property": "C65",
   "status": "partial",
   "theorems": [
    "GEM.Props.c65_feedback_violated",
    "GEM.Props.c65_ideal_partial",
    "GEM.Props.c22_range",
    "GEM.Props.c23_single_range",
    "GEM.Props.c23_three_range"
   ],
   "note": "The RC supply leaves its range for every current fed back into it; all other cases stay inside."
  },
  {
   "property": "C66",
   "status": "proved",
   "theorems": [
    "GEM.Props.c66_single_rms",
    "GEM.Props.c66_three_rms"
   ],
   "note": ""
  },
  {
   "property": "C67",
   "status": "partial",
   "theorems": [
    "GEM.Props.c67_uniform_partial",
    "GEM.Props.c67_disjoint_violated",
    "GEM.Props.c67_normal_partial",
    "GEM.Props.c67_mean_zero_violated"
   ],
   "note": "Holds when interval and nominal range overlap; a disjoint interval silently gives values in neither, and a mean of 0 is ignored."
  },
  {
   "property": "C68",
   "status": "partial",
   "theorems": [
    "GEM.Props.c68_uniform",
    "GEM.Props.c68_normal_violated"
   ],
   "note": "Holds for uniform; gaussian initialisation returns the same values in every episode because the pool entry of the seed sequence is used as random_state."
  },
  {
   "property": "C69",
   "status": "partial",
   "theorems": [
    "GEM.Props.c69_keeps_ac",
    "GEM.Props.c69_keeps_dc",
    "GEM.Props.c69_complete_ac",
    "GEM.Props.c69_complete_dc",
    "GEM.Props.c69_general_ac",
    "GEM.Props.c69_specific_refused_violated",
    "GEM.Props.c69_missing_current_violated",
    "GEM.Props.c69_general_dc_violated",
    "GEM.Props.c69_nominal_violated",
    "GEM.Props.c69_torque_extex",
    "GEM.Props.c69_torque_extex_violated",
    "GEM.Props.c69_stall_dc"
   ],
   "note": "Proved: user values are kept, every limit has a nominal value, AC currents and voltages follow i and u/2, open current limits of DC motors are the currents at standstill with the limit voltage. Violated: documented specific entries of AC motors raise KeyError, i=0 raises KeyError, DC armature/excitation limits ignore i, nominal values not given keep the class default and may exceed the limit, torque limit of a DC motor may be filled with 0."
  },
  {
   "property": "C70",
   "status": "partial",
   "theorems": [
    "GEM.Props.c70_sync_partial",
    "GEM.Props.c70_scim_partial",
    "GEM.Props.c70_outside_violated"
   ],
   "note": "Exact for actions of length at most one. For every longer action in the square action space there is an angle at which the voltage is another one."
  },
  {
   "property": "C71",
   "status": "partial",
   "theorems": [
    "GEM.Props.c71_sync_partial",
    "GEM.Props.c71_sync_violated",
    "GEM.Props.c71_dc_violated",
    "GEM.Props.c71_range_violated",
    "GEM.Props.c71_dc_range"
   ],
   "note": "Supplies with one voltage fit. AC3PhaseSupply makes reset and simulate raise with DC and synchronous systems; with AC1PhaseSupply u_sup leaves the declared interval of three-phase systems."
  },
  {
   "property": "C72",
   "status": "partial",
   "theorems": [
    "GEM.Props.c72_stack_partial",
    "GEM.Props.c72_remove_violated"
   ],
   "note": "Proved for all stacks without remove_angle=True, where it is violated."
  },
  {
   "property": "C73",
   "status": "partial",
   "theorems": [
    "GEM.Props.c73_symmetric_partial",
    "GEM.Props.c73_step",
    "GEM.Props.c73_nonnegative_violated"
   ],
   "note": "Holds for symmetric margins and for the step generator. For states without negative values sine, sawtooth and triangle are cut (violated)."
  },
  {
   "property": "C74",
   "status": "partial",
   "theorems": [
    "GEM.Props.c74_independent_partial",
    "GEM.Props.c74_wiener_violated"
   ],
   "note": "Holds for all sub-episoded generators except the Wiener process, which draws its initial reference with the generator of the previous episode."
  },
  {
   "property": "C75",
   "status": "partial",
   "theorems": [
    "GEM.Props.c75_reuse_partial",
    "GEM.Props.c75_reuse_violated",
    "GEM.Props.c75_pair_violated"
   ],
   "note": "Only for states without negative values. For states with both signs the second environment gets a constant reference."
  },
  {
   "property": "C76",
   "status": "partial",
   "theorems": [
    "GEM.Props.c76_names_partial",
    "GEM.Props.c76_const_violated",
    "GEM.Props.c76_switch_violated"
   ],
   "note": "Holds if no ConstReferenceGenerator is involved, whose reference_names is a string."
  },
  {
   "property": "C77",
   "status": "partial",
   "theorems": [
    "GEM.Props.c77_same_partial",
    "GEM.Props.c77_reuse_violated",
    "GEM.Props.c77_stale_violated"
   ],
   "note": "set_modules is idempotent for the same modules; for other modules the default weights of the first environment stay"
  },
  {
   "property": "C78",
   "status": "partial",
   "theorems": [
    "GEM.Props.c78_setter_violated",
    "GEM.Props.c78_prepared_partial"
   ],
   "note": "the setter does not call set_modules: a fresh reward function raises in every step; a function prepared by hand works"
  },
  {
   "property": "C79",
   "status": "partial",
   "theorems": [
    "GEM.Props.c79_normed_violated",
    "GEM.Props.c79_nan_violated",
    "GEM.Props.c45_total",
    "GEM.Props.c79_full_partial"
   ],
   "note": "gamma = 1 raises (normed) or makes all rewards nan; every other gamma works (c45_total)"
  },
  {
   "property": "C80",
   "status": "partial",
   "theorems": [
    "GEM.Props.c80_space_partial",
    "GEM.Props.c80_space_violated"
   ],
   "note": "holds if the maximum margin lies in the reference space; with the default margins violated for non-negative states"
  },
  {
   "property": "C81",
   "status": "proved",
   "theorems": [
    "GEM.Props.c81_walk"
   ],
   "note": "sigma_range as a pair of positive numbers; a single number raises a TypeError"
  },
  {
   "property": "C82",
   "status": "partial",
   "theorems": [
    "GEM.Props.c82_length_partial",
    "GEM.Props.c82_length_violated"
   ],
   "note": "lengths after clipping: the product of old and new length is fixed, so vectors are shortened too much"
  },
  {
   "property": "C83",
   "status": "partial",
   "theorems": [
    "GEM.Props.c83_before_reset_violated",
    "GEM.Props.c83_before_reset_partial",
    "GEM.Props.c83_modulation_violated",
    "GEM.Props.c83_modulation_partial"
   ],
   "note": "Holds for one current and for P controllers, and for the modulation controller after its first reset. Before the first reset, integrating controllers for two or more currents raise a ValueError and the modulation controller a TypeError."
  },
  {
   "property": "C84",
   "status": "partial",
   "theorems": [
    "GEM.Props.c84_amplitude",
    "GEM.Props.c84_seen",
    "GEM.Props.c84_middle_partial",
    "GEM.Props.c84_middle_violated",
    "GEM.Props.c84_dead_time_violated"
   ],
   "note": "correct for one pole pair, tau = 1e-4, no dead time"
  },
  {
   "property": "C85",
   "status": "partial",
   "theorems": [
    "GEM.Props.c85_current_stable",
    "GEM.Props.c85_speed_stable",
    "GEM.Props.c85_one_violated",
    "GEM.Props.c85_current_optimum",
    "GEM.Props.c85_speed_violated",
    "GEM.Props.c85_scim_violated"
   ],
   "note": "Stability of both loops for a > 1 holds; the speed controller misses the symmetrical optimum (integral gain lacks a factor 1/a), and the SCIM current controller is tuned with the rotor time constant instead of an inductance."
  },
  {
   "property": "C86",
   "status": "partial",
   "theorems": [
    "GEM.Props.c86_series_partial",
    "GEM.Props.c86_series_violated",
    "GEM.Props.c86_shunt_partial",
    "GEM.Props.c86_shunt_small",
    "GEM.Props.c86_shunt_violated",
    "GEM.Props.c86_extEx_partial",
    "GEM.Props.c86_extEx_violated",
    "GEM.Props.c86_extEx_losses",
    "GEM.Props.c86_permEx",
    "GEM.Props.c86_permEx_violated",
    "GEM.Props.c86_scim_partial",
    "GEM.Props.c86_scim_violated",
    "GEM.Props.c86_scim_limit",
    "GEM.Props.c86_scim_select_partial"
   ],
   "note": "false for negative torque (series), outside the margin and for small exciting current (shunt), negative or small exciting current (externally excited), small flux (SCIM); the voltage limit of the permanently excited motor is never applied"
  },
  {
   "property": "C87",
   "status": "partial",
   "theorems": [
    "GEM.Props.c87_mtpc_partial",
    "GEM.Props.c87_mtpc_equal",
    "GEM.Props.c87_mtpc_reluctance",
    "GEM.Props.c87_grid",
    "GEM.Props.c87_mtpc_violated",
    "GEM.Props.c87_mtpf_partial",
    "GEM.Props.c87_mtpf_violated",
    "GEM.Props.c87_mtpf_magnet",
    "GEM.Props.c87_mtpf_magnet_violated",
    "GEM.Props.c87_online_partial",
    "GEM.Props.c87_online_violated",
    "GEM.Props.c87_online_range",
    "GEM.Props.c87_online_cases",
    "GEM.Props.c87_table_partial",
    "GEM.Props.c87_table_range"
   ],
   "note": "false for magnet motors with l_d > l_q (table), magnet motors at fluxes no sampled pair has (flux table), reluctance motors (flux table not optimal), reluctance motors with l_d > l_q (online selection); the interpolated tables are not modelled"
  },
  {
   "property": "C88",
   "status": "partial",
   "theorems": [
    "GEM.Props.c88_mtpc_partial",
    "GEM.Props.c88_mtpc_violated",
    "GEM.Props.c88_psiOpt",
    "GEM.Props.c88_tMax_partial",
    "GEM.Props.c88_tMax_violated",
    "GEM.Props.c88_mtpf_partial",
    "GEM.Props.c88_mtpf_violated",
    "GEM.Props.c88_axis"
   ],
   "note": "false for torques beyond the largest one (IndexError), for the table of the largest torque (one row too small) and for the flux table of reluctance motors (dropped rows are counted in the position)"
  },
  {
   "property": "C89",
   "status": "partial",
   "theorems": [
    "GEM.Props.c89_partial",
    "GEM.Props.c89_reset_violated",
    "GEM.Props.c89_tune_violated"
   ],
   "note": "false for stages with the default flux controller"
  },
  {
   "property": "C90",
   "status": "partial",
   "theorems": [
    "GEM.Props.c90_points",
    "GEM.Props.c90_flux_violated"
   ],
   "note": "Proved for states whose space ends at 1, actions and rewards. Violated by flux observer states, which are plotted normalised."
  },
  {
   "property": "C91",
   "status": "proved",
   "theorems": [
    "GEM.Props.c91_lines",
    "GEM.Props.c91_drawn"
   ],
   "note": ""
  },
  {
   "property": "C92",
   "status": "partial",
   "theorems": [
    "GEM.Props.c92_length",
    "GEM.Props.c92_mean_partial",
    "GEM.Props.c92_mean_violated",
    "GEM.Props.c92_init_violated"
   ],
   "note": "Lengths: proved. Mean rewards: violated by an episode without steps (ZeroDivisionError in reset) and by a figure made after an episode has ended (values lost, numbers kept)."
  },
  {
   "property": "C93",
   "status": "partial",
   "theorems": [
    "GEM.Props.c93_steps",
    "GEM.Props.c93_last",
    "GEM.Props.c93_clear_violated"
   ],
   "note": "Holds without reset_figures. Violated after it: one abscissa less than ordinates, old violations still counted."
  },
  {
   "property": "C94",
   "status": "partial",
   "theorems": [
    "GEM.Props.c94_partial",
    "GEM.Props.c94_reward_violated",
    "GEM.Props.c94_length_partial",
    "GEM.Props.c94_mean_violated",
    "GEM.Props.c94_lines"
   ],
   "note": "State, action and length plots and vertical lines: proved (lengths: when the first episode has a step). Violated by the reward plot, which is never updated again, and the mean rewards, which contain the rewards of the episode before."
  },
  {
   "property": "C95",
   "status": "partial",
   "theorems": [
    "GEM.Props.c95_partial",
    "GEM.Props.c95_violated"
   ],
   "note": "Holds if render is called between a reset and the next step. Violated when rendering only after steps: every summary says one step."
  },
  {
   "property": "C96",
   "status": "partial",
   "theorems": [
    "GEM.Props.c96_figure",
    "GEM.Props.c96_once_partial",
    "GEM.Props.c96_once_violated"
   ],
   "note": "Figure: proved. FigureOnce: violated by runs shorter than update_interval, which are never updated."
  },
  {
   "property": "C97",
   "status": "partial",
   "theorems": [
    "GEM.Props.c97_partial",
    "GEM.Props.c97_action_violated",
    "GEM.Props.c97_unreferenced_violated"
   ],
   "note": "Referenced states: proved. Violated by action and reward plots (IndexError) and states without reference (not scaled)."
  },
  {
   "property": "C98",
   "status": "partial",
   "theorems": [
    "GEM.Props.c98_series",
    "GEM.Props.c98_excitation",
    "GEM.Props.c98_permEx_current_violated",
    "GEM.Props.c98_permEx_speed_violated",
    "GEM.Props.c98_shunt_speed_violated",
    "GEM.Props.c98_extEx_violated",
    "GEM.Props.c98_constant_violated",
    "GEM.Props.c98_series_euler",
    "GEM.Props.c98_series_euler_violated",
    "GEM.Props.c98_friction_euler_violated",
    "GEM.Props.c98_excitation_euler"
   ],
   "note": "Proved for the series motor with polynomial load (all states) and the exciting current of the shunt motor, for exact motions. Violated: permanently excited motor (1QC: current; 2QC: speed), shunt motor (speed), externally excited motor (armature current), loads with fixed negative speed. States the Euler solver computes keep the signs too if its steps are shorter than the decay time of the static friction and the time constant of the current at the speed reached; longer steps do not."
  },
  {
   "property": "C99",
   "status": "partial",
   "theorems": [
    "GEM.Props.c99_partial",
    "GEM.Props.c99_euler",
    "GEM.Props.c99_heun_violated",
    "GEM.Props.c99_ivp_violated"
   ],
   "note": "Proved for solvers that copy or use up each derivative before the next evaluation, among them the repository's Euler solver. Violated by all others: _system_equation returns one and the same array. The program of solve_ivp follows scipy, which is not part of the repository."
  }
 ]
}
