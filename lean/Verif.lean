import Verif.Props.Converters
import Verif.Props.Env
import Verif.Props.Utils
import Verif.Props.Seeding
import Verif.Props.Plant
import Verif.Props.Motors
import Verif.Props.Init
import Verif.Props.Limits
import Verif.Props.Sharing
import Verif.Props.Systems
import Verif.Props.Wrappers
import Verif.Props.References
import Verif.Props.Reward
import Verif.Props.Ramping
import Verif.Props.Control
import Verif.Props.Feedforward
import Verif.Props.OperatingPoint
import Verif.Props.Selection
import Verif.Props.FluxTable
import Verif.Props.Windup
import Verif.Props.Loop
import Verif.Props.Tuning
import Verif.Props.Dashboard
import Verif.Props.Statistics
import Verif.Props.Invariance
import Verif.Props.InvarianceEuler
import Verif.Props.Alias
import Verif.Props.Observer
import Verif.Props.Convergence
import Verif.Props.Energy
import Verif.Props.Stability
import Verif.Props.WellPosed
import Verif.Props.Accepts
import Verif.Props.Plotter
import Verif.Props.EesmTable
import Verif.Props.Episodes
import Verif.Props.Assembly
import Verif.Props.Registry
import Verif.Props.Nominal
import Verif.Props.Voltages
import Verif.Props.SupplyCurrent
import Verif.Model.SeededRefs
import Verif.Props.Reproducible
import Verif.Props.Restart
import Verif.Props.Replay
import Verif.Props.Counting
import Verif.Props.ClosedLoop
import Verif.Model.InitialFlux
import Verif.Props.InitialFlux
import Verif.Model.Replacement
import Verif.Props.Replacement
import Verif.Props.InRange
import Verif.Props.Overload
import Verif.Model.WrappedEnv
import Verif.Spec.WrappedEnv
import Verif.Props.WrappedEnv
import Verif.Props.WrappedRegistry
import Verif.Model.Classic
import Verif.Model.ClassicFoc
import Verif.Model.ClassicTorque
import Verif.Spec.Classic
import Verif.Props.ClassicActions
import Verif.Props.ClassicWindup
import Verif.Props.ClassicWindupIm
import Verif.Props.ClassicFeedforward
import Verif.Props.ClassicSwitching
import Verif.Props.ClassicTorque
import Verif.Props.ClassicMake
import Verif.Proofs.Settling
import Verif.Props.Settling
import Verif.Props.SettlingClassic
import Verif.Spec.Watching
import Verif.Model.RegisteredEnv
import Verif.Props.Watching
import Verif.Props.WatchingEnv
import Verif.Props.RegisteredEnv
import Verif.Props.OverloadSum
import Verif.Model.Transforms
import Verif.Props.Transforms
import Verif.Props.ClassicGiven
import Verif.Props.Symmetry
import Verif.Props.Phases
import Verif.Props.Reversal
import Verif.Props.Mirror
import Verif.Props.Holding
import Verif.Props.Markov
import Verif.Props.SpecialCases
import Verif.Props.Scaling
import Verif.Props.Superposition
import Verif.Model.Mpc
import Verif.Props.Mpc
import Verif.Model.Examples
import Verif.Props.Examples
import Verif.Props.ClassicDetails
import Verif.Props.Neutral
import Verif.Model.Profiles
import Verif.Props.Profiles
import Verif.Model.LoadStart
import Verif.Props.ClassicDiscrete
import Verif.Props.LoadStart
import Verif.Model.ExternalPlot
import Verif.Props.ExternalPlot
import Verif.Model.ReferencedStates
import Verif.Props.ReferencedStates
