import Verif.Roadmap.Props
import Verif.Roadmap.SelfMerge
import Verif.NearestNeighbor.Basic
import Verif.NearestNeighbor.KDTree
import Verif.ContinuousValidation.Intervals
import Verif.RelativeMotion
import Verif.AStar.Props
import Verif.Path.VectorExtract
import Verif.Path.InterpolatedProps
import Verif.Path.VectorVelocity
import Verif.Validation.Composite
import Verif.ContinuousValidation.Vector
import Verif.Obstacles.Continuous
import Verif.Planner.KPrmStar
import Verif.Planner.Visibility
import Verif.Planner.BiRRT
import Verif.Planner.BiRRTStarSolve
import Verif.Optim.PartialShortcut
import Verif.Optim.SimpleShortcut
import Verif.Projector.Hermite
import Verif.Constraint.Set
import Verif.Problem.Params
import Verif.Problem.Obstacles
import Verif.TimeParam.Simple
import Verif.TimeParam.Piecewise
import Verif.TimeParam.Quadratic
import Verif.Linear.Constraint
import Verif.Distance.Weighed
import Verif.Path.SplineBound
import Verif.Path.SplineIntegral
import Verif.ContinuousValidation.Speed
import Verif.Kino.MinTime
import Verif.Kino.FixedTime
import Verif.Kino.Path
import Verif.Kino.Steering
import Verif.Car.Arc
import Verif.Car.Derivative
import Verif.Car.Words
import Verif.Car.Dubins
import Verif.Car.Drive
import Verif.Car.Shorten
import Verif.Car.DubinsThm
import Verif.Car.RSWords
import Verif.Car.ReedsShepp
import Verif.Car.RSPath
import Verif.Car.RSFound
import Verif.SplineOpt.Params
import Verif.SplineOpt.Continuity
import Verif.SplineOpt.Steering
import Verif.SplineOpt.Bounds
import Verif.SplineOpt.Cost
import Verif.SplineOpt.Loop
import Verif.SplineOpt.LoopCost
import Verif.SplineOpt.LoopEnd
import Verif.SplineOpt.LoopExamples
import Verif.Projector.Global
import Verif.Projector.GlobalProps
import Verif.Projector.Hessian
import Verif.Projector.HessianProps
import Verif.Problem.Session
import Verif.Problem.SessionProps
import Verif.Problem.SessionSets
import Verif.Problem.SessionThms
import Verif.Problem.SessionPaths
import Verif.Sampling.Shooter
import Verif.Sampling.Gaussian
import Verif.Kino.Oriented
import Verif.Planner.Wrappers
import Verif.Path.Hermite
import Verif.Path.Subchain
import Verif.Car.CarLike
import Verif.Car.BackShortest
import Verif.TimeParam.Toppra
import Verif.Roadmap.Archive
import Verif.Path.Archive
import Verif.Problem.Copy
import Verif.Obstacles.Pool
import Verif.Constraint.Compress
import Verif.Optim.Monitor
import Verif.Distance.Weights
import Verif.Problem.Clone
import Verif.Roadmap.Manual
import Verif.Path.Rhs
import Verif.Planner.EndToEnd
import Verif.Planner.Optimize
import Verif.Path.LieGroup
import Verif.Planner.HalfTurn
import Verif.SplineOpt.CollisionFunction
import Verif.Planner.Closed
import Verif.Planner.BiRRTStarCost
import Verif.Planner.Bounds
import Verif.Planner.Leaf
import Verif.SplineOpt.Active
import Verif.SplineOpt.Groups
import Verif.SplineOpt.GroupsOptimum
import Verif.Problem.ParamHeap
import Verif.Obstacles.Concurrent
import Verif.Problem.Shapes
import Verif.Problem.Interrupt
import Verif.Path.Ball
import Verif.Path.Joints
import Verif.Planner.Turns
import Verif.Planner.Robots
import Verif.Planner.TurnsOptimize
import Verif.Planner.Trajectory
import Verif.Planner.RobotsTime
import Verif.Planner.TurnsBounds
import Verif.Roadmap.Memory
import Verif.Problem.Kept
import Verif.Path.Rounding
import Verif.Path.RoundedExtract
import Verif.Path.RoundedBounds
import Verif.ContinuousValidation.Rounded
import Verif.AStar.Rounded
import Verif.Distance.Rounded
import Verif.Validation.Single
import Verif.Planner.Complete
import Verif.Planner.CompleteBench
import Verif.Planner.CompleteBi
import Verif.Planner.CompleteBiBench
import Verif.Planner.CompletePrm
import Verif.Planner.CompletePrmBench
import Verif.Problem.ByName
import Verif.Problem.DeviceObstacles
import Verif.SplineOpt.Explicit
import Verif.Path.Steered
import Verif.Planner.OneWay
import Verif.ContinuousValidation.Uniform
import Verif.Car.Validation
import Verif.Planner.Cars
import Verif.Planner.CarsOptimize
import Verif.Planner.CarsSampled
import Verif.Planner.Direct
import Verif.Planner.CarsSampledOptimize
import Verif.Planner.Retime
import Verif.Planner.CarsTime
import Verif.Planner.CarsBounds
import Verif.Planner.CarsBoundsOptimize
import Verif.Planner.PopOrder
