import Verif.Model.Alias
import Verif.Model.AttEst
import Verif.Model.Controller
import Verif.Model.Delay
import Verif.Model.Dynamics
import Verif.Model.Environment
import Verif.Model.Examples
import Verif.Model.FlightSoftware
import Verif.Model.Float
import Verif.Model.FloatEquatorial
import Verif.Model.Frame
import Verif.Model.FswModule
import Verif.Model.Ieee
import Verif.Model.IeeeFilter
import Verif.Model.IeeeFsw
import Verif.Model.IeeeMag
import Verif.Model.IeeePos
import Verif.Model.JDay
import Verif.Model.Manager
import Verif.Model.Observers
import Verif.Model.Quaternion
import Verif.Model.Sensor
import Verif.Model.SensorChecked
import Verif.Model.Shared
import Verif.Model.SimPlot
import Verif.Model.SimQuat
import Verif.Model.State
import Verif.Model.StateMachine
import Verif.Model.Structure
import Verif.Model.Vector
import Verif.Proofs.AttError
import Verif.Proofs.AttFilter
import Verif.Proofs.AttitudeFlow
import Verif.Proofs.Averaging
import Verif.Proofs.Basic
import Verif.Proofs.Clock
import Verif.Proofs.Coast
import Verif.Proofs.CoastExists
import Verif.Proofs.Concurrency
import Verif.Proofs.Convergence
import Verif.Proofs.Dynamics
import Verif.Proofs.EnvBound
import Verif.Proofs.ExampleSat
import Verif.Proofs.FilterCycle
import Verif.Proofs.FilterLinear
import Verif.Proofs.FilterSettle
import Verif.Proofs.FilterSteady
import Verif.Proofs.Flae
import Verif.Proofs.FlaeNoise
import Verif.Proofs.Float
import Verif.Proofs.Flow
import Verif.Proofs.Gauss
import Verif.Proofs.Height
import Verif.Proofs.Held
import Verif.Proofs.HeldTrack
import Verif.Proofs.Instability
import Verif.Proofs.Kalman
import Verif.Proofs.KeepOut
import Verif.Proofs.Kepler
import Verif.Proofs.LimitedSlew
import Verif.Proofs.Lqr
import Verif.Proofs.Manager
import Verif.Proofs.Mismatch
import Verif.Proofs.MismatchLocal
import Verif.Proofs.Olson
import Verif.Proofs.OlsonHigh
import Verif.Proofs.OlsonNewton
import Verif.Proofs.OlsonStart
import Verif.Proofs.OneStep
import Verif.Proofs.Pendulum
import Verif.Proofs.PosBias
import Verif.Proofs.PosTracking
import Verif.Proofs.Quat
import Verif.Proofs.Readings
import Verif.Proofs.Riccati
import Verif.Proofs.RiccatiLimit
import Verif.Proofs.Rk4Order
import Verif.Proofs.RollLimit
import Verif.Proofs.Shared
import Verif.Proofs.SignRuns
import Verif.Proofs.SimQuat
import Verif.Proofs.SimTrack
import Verif.Proofs.Slew
import Verif.Proofs.Staring
import Verif.Proofs.State
import Verif.Proofs.Tracking
import Verif.Proofs.Triad
import Verif.Proofs.Wheels
import Verif.Props.Accuracy
import Verif.Props.AimFilter
import Verif.Props.AimNoise
import Verif.Props.Alias
import Verif.Props.AttConverge
import Verif.Props.AttError
import Verif.Props.AttFilter
import Verif.Props.AttSteady
import Verif.Props.AttTurning
import Verif.Props.Averaging
import Verif.Props.Avoidance
import Verif.Props.BadField
import Verif.Props.Bbq
import Verif.Props.Clock
import Verif.Props.Concurrency
import Verif.Props.Consistency
import Verif.Props.Convergence
import Verif.Props.Daemon
import Verif.Props.Delay
import Verif.Props.Detumble
import Verif.Props.Dipole
import Verif.Props.Dynamics
import Verif.Props.EnvBound
import Verif.Props.Envelope
import Verif.Props.Environment
import Verif.Props.Equatorial
import Verif.Props.ErrorAngle
import Verif.Props.Estimators
import Verif.Props.Everywhere
import Verif.Props.Flae
import Verif.Props.FlaeNoise
import Verif.Props.FlightSoftware
import Verif.Props.Float
import Verif.Props.FloatEquatorial
import Verif.Props.FloatSat
import Verif.Props.FloatSeq
import Verif.Props.FloatSteps
import Verif.Props.FloatTime
import Verif.Props.Frame
import Verif.Props.FswModule
import Verif.Props.Future
import Verif.Props.GainAxes
import Verif.Props.GainMatrix
import Verif.Props.Geodetic
import Verif.Props.GeodeticInverse
import Verif.Props.Gravity
import Verif.Props.Handlers
import Verif.Props.Height
import Verif.Props.HelperSat
import Verif.Props.Inertia
import Verif.Props.Integrator
import Verif.Props.JClock
import Verif.Props.KeepOut
import Verif.Props.Libration
import Verif.Props.LimitedRuns
import Verif.Props.LimitedSlew
import Verif.Props.LimitedSlewRuns
import Verif.Props.LimitedTrack
import Verif.Props.LongWay
import Verif.Props.Lqr
import Verif.Props.MagControl
import Verif.Props.Manager
import Verif.Props.Margins
import Verif.Props.Mismatch
import Verif.Props.MismatchLocal
import Verif.Props.Nadir
import Verif.Props.Node
import Verif.Props.Noise
import Verif.Props.NotANumber
import Verif.Props.Nudge
import Verif.Props.Orbit
import Verif.Props.Order
import Verif.Props.Period
import Verif.Props.Pointing
import Verif.Props.Poisoned
import Verif.Props.PoisonedPos
import Verif.Props.PosBias
import Verif.Props.PosFilter
import Verif.Props.PosTracking
import Verif.Props.PosUncertainty
import Verif.Props.Power
import Verif.Props.Prediction
import Verif.Props.Quat
import Verif.Props.Reach
import Verif.Props.Readings
import Verif.Props.Reset
import Verif.Props.RollIn
import Verif.Props.Sampled
import Verif.Props.SampledTrack
import Verif.Props.SensorChecked
import Verif.Props.Sensors
import Verif.Props.Shared
import Verif.Props.Sidereal
import Verif.Props.SignReadings
import Verif.Props.SignRuns
import Verif.Props.Signed
import Verif.Props.SimPlot
import Verif.Props.SimQuat
import Verif.Props.SimTrack
import Verif.Props.Slew
import Verif.Props.Sources
import Verif.Props.Spin
import Verif.Props.Staring
import Verif.Props.State
import Verif.Props.StateMachine
import Verif.Props.Stuck
import Verif.Props.SunSide
import Verif.Props.Sync
import Verif.Props.TargetLoop
import Verif.Props.Torquers
import Verif.Props.Tracking
import Verif.Props.Triad
import Verif.Props.TriadNoise
import Verif.Props.Trigger
import Verif.Props.TrueLoop
import Verif.Props.Unload
import Verif.Props.Vanishing
import Verif.Props.Vec
import Verif.Props.Walls
import Verif.Props.WheelLimit
import Verif.Props.Wheels
import Verif.Props.ZonalOrbit
import Verif.Py
import Verif.Spec.Calendar
import Verif.Spec.Covariance
import Verif.Spec.Rotation
import Verif.Spec.ScalarLast
