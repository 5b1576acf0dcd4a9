import Mathlib.Data.List.Basic
import Mathlib.Tactic.Common
set_option linter.unusedSectionVars false

/-!
# Sessions with `ProblemSolver`: selection of components by name, goals, constraints, paths, step by step resolution (C97-C101)

Builders are represented by their names: two components built from the same name (and tolerance) are not distinguished.  Obstacles are in `Verif.Problem.Obstacles`.  The
parameters of `Problem` read by some builders are not modelled.
-/
namespace Verif.Session
variable {Q P C K : Type}

/-- Exceptions, and undefined behaviour (`ub`: null pointer, expired weak pointer, iterator out of range). -/
inductive Err where
  | runtime | invalid | logic | planning | ub
deriving DecidableEq, Repr

/-- The containers of builders: problem-solver.hh, members `configurationShooters` … `pathOptimizers`. -/
inductive Kind where
  | shooter | steering | distance | pathValidation | configValidation | projector | planner | optimizer
deriving DecidableEq, Repr

/-- A `ConstraintSet`: its constraints other than the config projector, and the config projector: error threshold, maximal number of iterations, names of the
numerical constraints (constraint-set.cc:51-81). -/
structure CSet (C K : Type) where
  cons : List C
  proj : Option (K × Nat × List String)

/-- A steering method: builder and constraint set (a shared pointer: rank in the list of all sets). -/
structure Steer where
  name : String
  cset : Nat

/-- A path projector: builder, tolerance, and copies of the distance and of the steering method of the problem when it was created (path-projector.cc:44-54); the
constraints are kept by `RecursiveHermite` only. -/
structure Projector (C K : Type) where
  name : String
  tol : K
  dist : String
  steer : String
  cons : Option (CSet C K)

/-- A `ProblemTarget`: null pointer, `GoalConfigurations`, `TaskTarget` with the settings of its config projector. -/
inductive Target (Q K : Type) where
  | null
  | goals (l : List Q)
  | task (e : K) (n : Nat) (names : List String)

def Target.isTask : Target Q K → Bool
  | .task _ _ _ => true
  | _ => false

/-- `Problem`: problem.hh:289-309. -/
structure Pb (Q C K : Type) where
  dist : String
  init : Option Q
  target : Target Q K
  sm : Steer
  cvs : List String
  pv : String × K
  proj : Option (Projector C K)
  cset : Nat
  shooter : String

/-- A `Roadmap`: distance, whether it has an initial node, whether a goal node can be reached from it. -/
structure Road where
  dist : String
  init : Bool
  goal : Bool

/-- A `PathPlanner`: builder, problem (weak pointer), roadmap, limits. -/
structure Planner (K : Type) where
  name : String
  prob : Nat
  road : Nat
  maxIter : Nat
  timeOut : Option K

/-- Members of `ProblemSolver`: problem-solver.hh:529-577.  `sets`, `roads`, `probs`: all constraint sets, all roadmaps, number of problems created so far. -/
structure St (Q P C K : Type) where
  reg : Kind → List String
  numerical : List String
  sets : List (CSet C K)
  roads : List Road
  probs : Nat
  robot : Bool
  cset : Option Nat
  problem : Option (Nat × Pb Q C K)
  planner : Option (Planner K)
  roadmap : Option Nat
  paths : List P
  projType : String
  projTol : K
  plannerType : String
  target : Target Q K
  init : Option Q
  goals : List Q
  shooterType : String
  distType : String
  smType : String
  optTypes : List String
  optimizers : List String
  pvType : String
  pvTol : K
  cvTypes : List String
  errThr : K
  maxIterProj : Nat
  maxIter : Nat
  timeOut : Option K

/-- External calls: `steer` of the steering method with this builder and these constraints, `apply` of the path projector (success and path, `none`: null pointer), `validate`
of the path validation (answer, valid part, whether there is a report), `optimize` (`none`: exception). -/
structure Env (Q P C K : Type) where
  steer : String → CSet C K → Q → Q → Option P
  project : Projector C K → P → Bool × Option P
  validate : String × K → P → Bool × P × Bool
  optimize : String → P → Option P

/-- A constraint given to `addConstraint`. -/
inductive Con (C K : Type) where
  | other (c : C)
  | projector (e : K) (n : Nat)

/-- Calls.  The last argument of `solve`, `prepare`, `oneStep`, `finish` is what the planner does: the path or an exception, whether the target is reached, the path. -/
inductive Op (Q P C K : Type) where
  | register (k : Kind) (n : String)
  | addNumericalConstraint (n : String)
  | robot
  | initConfig (q : Q)
  | addGoalConfig (q : Q)
  | resetGoalConfigs
  | setGoalConstraints (l : List String)
  | resetGoalConstraints
  | plannerType (n : String)
  | distanceType (n : String)
  | steeringMethodType (n : String)
  | shooterType (n : String)
  | addPathOptimizer (n : String)
  | clearPathOptimizers
  | pathValidationType (n : String) (tol : K)
  | pathProjectorType (n : String) (tol : K)
  | addConfigValidation (n : String)
  | clearConfigValidations
  | addConstraint (c : Con C K)
  | resetConstraints
  | addToProjector (n : String)
  | maxIterProjection (n : Nat)
  | errorThreshold (e : K)
  | maxIterPathPlanning (n : Nat)
  | timeOut (t : Option K)
  | resetProblem
  | resetRoadmap
  | initDistance
  | solve (r : Option P)
  | prepare (found : Bool)
  | oneStep (found : Bool)
  | finish (p : P)
  | directPath (a b : Q) (validate : Bool)
  | addPath (p : P)
  | erasePath (i : Nat)
  | pbAddGoal (q : Q)
  | pbSteeringMethod (n : String)
  | pbShooter (n : String)

/-- Values returned: nothing, a Boolean, `directPath` (answer, `pathId` (`none`: -1), whether the report is empty), `addPath`. -/
inductive Ret where
  | unit
  | bool (b : Bool)
  | direct (b : Bool) (id : Option Nat) (empty : Bool)
  | id (i : Nat)
deriving DecidableEq, Repr

abbrev Res := Except Err Ret

/-- Constructor: problem-solver.cc:168-296. -/
def St.start (tolProj tolVal err : K) : St Q P C K where
  reg
    | .shooter => ["Uniform", "Gaussian", "UniformSeedable"]
    | .steering => ["Straight", "ReedsShepp", "Kinodynamic", "Dubins", "Snibud", "Hermite", "SplineBezier3", "SplineBezier5"]
    | .distance => ["Weighed", "ReedsShepp", "Kinodynamic"]
    | .pathValidation => ["NoValidation", "Discretized", "DiscretizedCollision", "DiscretizedJointBound", "DiscretizedCollisionAndJointBound", "Progressive", "Dichotomy"]
    | .configValidation => ["CollisionValidation", "JointBoundValidation"]
    | .projector => ["None", "Progressive", "Dichotomy", "Global", "RecursiveHermite"]
    | .planner => ["DiffusingPlanner", "VisibilityPrmPlanner", "BiRRTPlanner", "kPRM*", "BiRRT*", "SearchInRoadmap"]
    | .optimizer => ["RandomShortcut", "SimpleShortcut", "PartialShortcut", "SimpleTimeParameterization", "RSTimeParameterization"]
  numerical := []
  sets := []
  roads := []
  probs := 0
  robot := false
  cset := none
  problem := none
  planner := none
  roadmap := none
  paths := []
  projType := "None"
  projTol := tolProj
  plannerType := "DiffusingPlanner"
  target := .goals []
  init := none
  goals := []
  shooterType := "Uniform"
  distType := "WeighedDistance"
  smType := "Straight"
  optTypes := []
  optimizers := []
  pvType := "Discretized"
  pvTol := tolVal
  cvTypes := ["CollisionValidation", "JointBoundValidation"]
  errThr := err
  maxIterProj := 20
  maxIter := 18446744073709551615
  timeOut := none

/-- `Container::has`: container.hh:93. -/
def St.has (s : St Q P C K) (k : Kind) (n : String) : Bool := (s.reg k).contains n

/-- `resetRoadmap`: problem-solver.cc:674-677. -/
def St.resetRoadmap (s : St Q P C K) : St Q P C K × Option Err := match s.problem with
  | none => (s, some .runtime)
  | some (_, p) => ({ s with roads := s.roads ++ [⟨p.dist, false, false⟩], roadmap := some s.roads.length }, none)

/-- `initPathValidation`: problem-solver.cc:387-393. -/
def St.initPathValidation (s : St Q P C K) : St Q P C K × Option Err := match s.problem with
  | none => (s, some .runtime)
  | some (i, p) => if s.has .pathValidation s.pvType = true then ({ s with problem := some (i, { p with pv := (s.pvType, s.pvTol) }) }, none) else (s, some .invalid)

/-- Loop of `initConfigValidation`: problem-solver.cc:399-404. -/
def addValidations (ok : String → Bool) : List String → List String → List String × Option Err
  | [], acc => (acc, none)
  | n :: l, acc => if ok n = true then addValidations ok l (acc ++ [n]) else (acc, some .invalid)

/-- `initConfigValidation`: problem-solver.cc:395-406. -/
def St.initConfigValidation (s : St Q P C K) : St Q P C K × Option Err :=
  if s.robot = false then (s, some .logic)
  else match s.problem with
    | none => (s, some .runtime)
    | some (i, p) =>
      ({ s with problem := some (i, { p with cvs := (addValidations (s.has .configValidation) s.cvTypes []).1 }) }, (addValidations (s.has .configValidation) s.cvTypes []).2)

/-- `Problem::create`, `Problem::init`: problem.cc:78-82, 96-106, 91-107; the set of constraints is new.  The default path validation is built by the function registered as
`Discretized`; its tolerance 0.05 is not represented: `initializeProblem` replaces it at once. -/
def Pb.create (cset : Nat) (tol : K) : Pb Q C K := ⟨"Weighed", none, .goals [], ⟨"Straight", cset⟩, [], ("Discretized", tol), none, cset, "Uniform"⟩

/-- `resetProblem`, `initializeProblem`: problem-solver.cc:612-631; `Problem::constraints (…)` also sets the constraints of the steering method (problem.hh:171-174).  A null robot
is dereferenced by the distance. -/
def St.resetProblem (s : St Q P C K) : St Q P C K × Option Err :=
  match s.robot, s.cset with
  | true, some c =>
    let p0 : Pb Q C K := Pb.create s.sets.length s.pvTol
    let s1 : St Q P C K := { s with sets := s.sets ++ [⟨[], none⟩], probs := s.probs + 1, problem := some (s.probs, p0) }
    match s1.resetRoadmap with
    | (s2, some e) => (s2, some e)
    | (s2, none) =>
      let s3 := { s2 with problem := some (s.probs, { p0 with cset := c, sm := { p0.sm with cset := c } }) }
      match s3.initPathValidation with
      | (s4, some e) => (s4, some e)
      | (s4, none) => s4.initConfigValidation
  | _, _ => (s, some .ub)

/-- `initDistance`: problem-solver.cc:689-693. -/
def St.initDistance (s : St Q P C K) : St Q P C K × Option Err := match s.problem with
  | none => (s, some .runtime)
  | some (i, p) => if s.has .distance s.distType = true then ({ s with problem := some (i, { p with dist := s.distType }) }, none) else (s, some .invalid)

/-- `initSteeringMethod`: problem-solver.cc:695-699, `Problem::steeringMethod`: problem.hh:113-116. -/
def St.initSteeringMethod (s : St Q P C K) : St Q P C K × Option Err := match s.problem with
  | none => (s, some .runtime)
  | some (i, p) => if s.has .steering s.smType = true then ({ s with problem := some (i, { p with sm := ⟨s.smType, p.cset⟩ }) }, none) else (s, some .invalid)

/-- The projectors built by `initPathProjector`: `None` gives a null pointer (problem-solver.cc:278-280); only `RecursiveHermite` keeps the constraints of the steering method. -/
def buildProjector (n : String) (tol : K) (p : Pb Q C K) (sets : List (CSet C K)) : Option (Projector C K) :=
  if n = "None" then none else some ⟨n, tol, p.dist, p.sm.name, if n = "RecursiveHermite" then sets[p.sm.cset]? else none⟩

/-- `initPathProjector`: problem-solver.cc:701-714. -/
def St.initPathProjector (s : St Q P C K) : St Q P C K × Option Err := match s.problem with
  | none => (s, some .runtime)
  | some (i, p) =>
    if s.has .projector s.projType = true then ({ s with problem := some (i, { p with proj := buildProjector s.projType s.projTol p s.sets }) }, none)
    else (s, some .invalid)

/-- Creation of the planner: problem-solver.cc:640-644. -/
def St.initPlanner (s : St Q P C K) (i : Nat) : St Q P C K × Option Err :=
  if s.has .planner s.plannerType = true then match s.roadmap with
    | none => (s, some .ub)
    | some r => ({ s with planner := some ⟨s.plannerType, i, r, s.maxIter, s.timeOut⟩ }, none)
  else (s, some .invalid)

/-- Target: problem-solver.cc:648-670, `initProblemTarget`: 716-720.  A `GoalConfigurations` object shared by the solver and the problem is represented by two lists; the
one of the solver is never read. -/
def St.initTarget (s : St Q P C K) (i : Nat) (p : Pb Q C K) : St Q P C K × Option Err :=
  if s.goals.isEmpty = false ∧ s.target.isTask = true then ({ s with problem := some (i, { p with init := s.init }) }, some .logic)
  else
    let t := if s.target.isTask = true then s.target else .goals s.goals
    ({ s with target := t, problem := some (i, { p with init := s.init, target := t }) }, none)

/-- `initProblem`: problem-solver.cc:633-670. -/
def St.initProblem (s : St Q P C K) : St Q P C K × Option Err := match s.problem with
  | none => (s, some .runtime)
  | some (i, p) =>
    if s.has .shooter s.shooterType = true then
      let s1 := { s with problem := some (i, { p with shooter := s.shooterType }) }
      match s1.initSteeringMethod with
      | (s2, some e) => (s2, some e)
      | (s2, none) => match s2.initPlanner i with
        | (s3, some e) => (s3, some e)
        | (s3, none) => match s3.initPathProjector with
          | (s4, some e) => (s4, some e)
          | (s4, none) => match s4.problem with
            | none => (s4, some .runtime)
            | some (i, p) => s4.initTarget i p
    else (s, some .invalid)

/-- `createPathOptimizers`: problem-solver.cc:679-687. -/
def St.createPathOptimizers (s : St Q P C K) : St Q P C K × Option Err := match s.problem with
  | none => (s, some .runtime)
  | some _ => ({ s with optimizers := (addValidations (s.has .optimizer) s.optTypes []).1 }, (addValidations (s.has .optimizer) s.optTypes []).2)

/-- Loop of `optimizePath`: problem-solver.cc:353-357. -/
def optimizeLoop (opt : String → P → Option P) : List String → P → List P → List P × Option Err
  | [], _, acc => (acc, none)
  | n :: l, p, acc => match opt n p with
    | none => (acc, some .planning)
    | some p' => optimizeLoop opt l p' (acc ++ [p'])

/-- `optimizePath`: problem-solver.cc:351-358. -/
def St.optimizePath (E : Env Q P C K) (s : St Q P C K) (p : P) : St Q P C K × Option Err := match s.createPathOptimizers with
  | (s1, some e) => (s1, some e)
  | (s1, none) => ({ s1 with paths := (optimizeLoop E.optimize s1.optimizers p s1.paths).1 }, (optimizeLoop E.optimize s1.optimizers p s1.paths).2)

/-- `Roadmap::pathExists` of the roadmap of the solver: roadmap.cc:322-331; the initial node is dereferenced. -/
def St.pathExists (s : St Q P C K) : Res := match s.roadmap with
  | none => .error .ub
  | some r => match s.roads[r]? with
    | none => .error .ub
    | some x => if x.init = true then .ok (.bool x.goal) else .error .ub

/-- The problem of the planner: a weak pointer, valid if the problem is still the one of the solver (no other owner is considered). -/
def St.plannerProblem (s : St Q P C K) (pl : Planner K) : Option (Pb Q C K) := match s.problem with
  | none => none
  | some (i, p) => if i = pl.prob then some p else none

/-- Effect of the planner on its roadmap: `startSolve` tags the initial and the goal nodes (path-planner.cc:83-98); there is no goal node for a task, hence `pathExists` is false
even if the task is achieved by a node (task-target.cc:57-71). -/
def tag (t : Target Q K) (keep found : Bool) (x : Road) : Road := { x with init := true, goal := !t.isTask && (found || (keep && x.goal)) }

/-- `solve`: problem-solver.cc:741-747. -/
def St.solve (E : Env Q P C K) (s : St Q P C K) (r : Option P) : St Q P C K × Res := match s.initProblem with
  | (s1, some e) => (s1, .error e)
  | (s1, none) => match s1.planner, s1.problem with
    | some pl, some (_, p) =>
      let s2 := { s1 with roads := s1.roads.modify pl.road (tag p.target false r.isSome) }
      match r with
      | none => (s2, .error .planning)
      | some path => match St.optimizePath E { s2 with paths := s2.paths ++ [path] } path with
        | (s3, some e) => (s3, .error e)
        | (s3, none) => (s3, .ok .unit)
    | _, _ => (s1, .error .ub)

/-- `prepareSolveStepByStep`: problem-solver.cc:722-728. -/
def St.prepare (s : St Q P C K) (found : Bool) : St Q P C K × Res := match s.initProblem with
  | (s1, some e) => (s1, .error e)
  | (s1, none) => match s1.planner, s1.problem with
    | some pl, some (_, p) =>
      let s2 := { s1 with roads := s1.roads.modify pl.road (tag p.target false found) }
      (s2, s2.pathExists)
    | _, _ => (s1, .error .ub)

/-- `executeOneStep`: problem-solver.cc:730-733. -/
def St.oneStep (s : St Q P C K) (found : Bool) : St Q P C K × Res := match s.planner with
  | none => (s, .error .ub)
  | some pl => match s.plannerProblem pl with
    | none => (s, .error .ub)
    | some p =>
      let s1 := { s with roads := s.roads.modify pl.road (fun x => if x.init = true then tag p.target true found x else x) }
      (s1, s1.pathExists)

/-- `finishSolveStepByStep`: problem-solver.cc:735-739. -/
def St.finish (s : St Q P C K) (path : P) : St Q P C K × Res := match s.pathExists with
  | .error e => (s, .error e)
  | .ok (.bool true) => match s.planner with
    | none => (s, .error .ub)
    | some pl => match s.plannerProblem pl with
      | none => (s, .error .ub)
      | some _ => ({ s with paths := s.paths ++ [path] }, .ok .unit)
  | .ok _ => (s, .error .logic)

/-- Projection then validation in `directPath`: problem-solver.cc:765-783; `none`: the validation dereferences a null pointer.  Answer, path, whether the report is empty. -/
def checkDirect (E : Env Q P C K) (p : Pb Q C K) (dp : P) : Option (Bool × P × Bool) :=
  let x : Bool × Option P := match p.proj with
    | none => (true, some dp)
    | some f => E.project f dp
  match x with
  | (_, none) => none
  | (projected, some dp1) =>
    let v := E.validate p.pv dp1
    some (v.1 && projected, v.2.1, v.1)

/-- `directPath`: problem-solver.cc:749-793, `addPath`: problem-solver.hh:366-370. -/
def St.directPath (E : Env Q P C K) (s : St Q P C K) (a b : Q) (validate : Bool) : St Q P C K × Res := match s.problem with
  | none => (s, .error .runtime)
  | some (_, p) => match s.sets[p.sm.cset]? with
    | none => (s, .error .ub)
    | some c => match E.steer p.sm.name c a b with
      | none => (s, .ok (.direct false none false))
      | some dp =>
        if validate = true then match checkDirect E p dp with
          | none => (s, .error .ub)
          | some (ok, dp2, empty) => ({ s with paths := s.paths ++ [dp2] }, .ok (.direct ok (some s.paths.length) empty))
        else ({ s with paths := s.paths ++ [dp] }, .ok (.direct true (some s.paths.length) true))

/-- The outcome of a method without result. -/
def unitRes (x : St Q P C K × Option Err) : St Q P C K × Res := (x.1, match x.2 with
  | none => .ok .unit
  | some e => .error e)

/-- `ConstraintSet::addConstraint`: constraint-set.cc:65-81. -/
def CSet.add (c : CSet C K) : Con C K → Option (CSet C K)
  | .other x => some { c with cons := c.cons ++ [x] }
  | .projector e n => match c.proj with
    | some _ => none
    | none => some { c with proj := some (e, n, []) }

/-- Setting of the config projector of the constraint set, if any: problem-solver.cc:595-597, 607-609. -/
def CSet.mapProj (f : K × Nat × List String → K × Nat × List String) (c : CSet C K) : CSet C K := { c with proj := c.proj.map f }

/-- `addNumericalConstraintToConfigProjector`: problem-solver.cc:525-543; the projector is created before the name is checked. -/
def St.addToProjector (s : St Q P C K) (n : String) : St Q P C K × Res := match s.cset with
  | none => (s, .error .ub)
  | some i =>
    let s1 := { s with sets := s.sets.modify i (fun c => match c.proj with
      | some _ => c
      | none => { c with proj := some (s.errThr, s.maxIterProj, []) }) }
    if s.numerical.contains n = true then ({ s1 with sets := s1.sets.modify i (CSet.mapProj (fun x => (x.1, x.2.1, x.2.2 ++ [n]))) }, .ok .unit)
    else (s1, .error .invalid)

/-- One call.  `robot`: 464-475; `initConfig`: 479; `addGoalConfig`, `resetGoalConfigs`: 485-489; `setGoalConstraints`: 491-505; `resetGoalConstraints`: 507; types: 300-345,
360-372, 414-428; `clearPathOptimizers`: 346-349; `addConfigValidation`, `clearConfigValidations`: 435-452; `addConstraint`, `resetConstraints`: 509-523; limits: 593-610,
problem-solver.hh; `erasePath`: problem-solver.hh:373-378; the last three: problem.cc:145-156, problem.hh:113-116, problem.cc:260-263. -/
def step (E : Env Q P C K) (s : St Q P C K) : Op Q P C K → St Q P C K × Res
  | .register k n => ({ s with reg := fun k' => if k' = k then s.reg k' ++ [n] else s.reg k' }, .ok .unit)
  | .addNumericalConstraint n => ({ s with numerical := s.numerical ++ [n] }, .ok .unit)
  | .robot => unitRes (St.resetProblem { s with robot := true, cset := some s.sets.length, sets := s.sets ++ [⟨[], none⟩] })
  | .initConfig q => ({ s with init := some q }, .ok .unit)
  | .addGoalConfig q => ({ s with goals := s.goals ++ [q] }, .ok .unit)
  | .resetGoalConfigs => ({ s with goals := [] }, .ok .unit)
  | .setGoalConstraints l => match s.problem with
    | none => (s, .error .ub)
    | some _ => ({ s with target := .task s.errThr s.maxIterProj l }, .ok .unit)
  | .resetGoalConstraints => ({ s with target := .null }, .ok .unit)
  | .plannerType n => if s.has .planner n = true then ({ s with plannerType := n }, .ok .unit) else (s, .error .runtime)
  | .distanceType n => if s.has .distance n = true then ({ s with distType := n }, .ok .unit) else (s, .error .runtime)
  | .steeringMethodType n =>
    if s.has .steering n = true then match s.problem with
      | none => ({ s with smType := n }, .ok .unit)
      | some _ => unitRes (St.initSteeringMethod { s with smType := n })
    else (s, .error .runtime)
  | .shooterType n =>
    if s.has .shooter n = true then
      ({ s with shooterType := n, problem := if s.robot = true then s.problem.map (fun x => (x.1, { x.2 with shooter := n })) else s.problem }, .ok .unit)
    else (s, .error .runtime)
  | .addPathOptimizer n => if s.has .optimizer n = true then ({ s with optTypes := s.optTypes ++ [n] }, .ok .unit) else (s, .error .runtime)
  | .clearPathOptimizers => ({ s with optTypes := [], optimizers := [] }, .ok .unit)
  | .pathValidationType n tol =>
    if s.has .pathValidation n = true then
      if s.robot = true ∧ s.problem.isSome = true then unitRes (St.initPathValidation { s with pvType := n, pvTol := tol })
      else ({ s with pvType := n, pvTol := tol }, .ok .unit)
    else (s, .error .runtime)
  | .pathProjectorType n tol =>
    if s.has .projector n = true then
      if s.robot = true ∧ s.problem.isSome = true then unitRes (St.initPathProjector { s with projType := n, projTol := tol })
      else ({ s with projType := n, projTol := tol }, .ok .unit)
    else (s, .error .runtime)
  | .addConfigValidation n =>
    if s.has .configValidation n = true then match s.problem with
      | none => ({ s with cvTypes := s.cvTypes ++ [n] }, .error .runtime)
      | some _ => unitRes (St.initConfigValidation { s with cvTypes := s.cvTypes ++ [n] })
    else (s, .error .runtime)
  | .clearConfigValidations => match s.problem with
    | none => ({ s with cvTypes := [] }, .error .ub)
    | some (i, p) => ({ s with cvTypes := [], problem := some (i, { p with cvs := [] }) }, .ok .unit)
  | .addConstraint c => match s.robot, s.cset with
    | true, some i => match (s.sets[i]?).bind (·.add c) with
      | none => (s, .error .runtime)
      | some x => ({ s with sets := s.sets.set i x }, .ok .unit)
    | true, none => (s, .error .ub)
    | false, _ => (s, .error .logic)
  | .resetConstraints =>
    if s.robot = true then
      ({ s with cset := some s.sets.length, sets := s.sets ++ [⟨[], none⟩], problem := s.problem.map (fun x => (x.1, { x.2 with cset := s.sets.length, sm := { x.2.sm with cset := s.sets.length } })) }, .ok .unit)
    else (s, .ok .unit)
  | .addToProjector n => s.addToProjector n
  | .maxIterProjection n => ({ s with maxIterProj := n, sets := match s.cset with
      | none => s.sets
      | some i => s.sets.modify i (CSet.mapProj (fun x => (x.1, n, x.2.2))) }, .ok .unit)
  | .errorThreshold e => ({ s with errThr := e, sets := match s.cset with
      | none => s.sets
      | some i => s.sets.modify i (CSet.mapProj (fun x => (e, x.2.1, x.2.2))) }, .ok .unit)
  | .maxIterPathPlanning n => ({ s with maxIter := n, planner := s.planner.map (fun pl => { pl with maxIter := n }) }, .ok .unit)
  | .timeOut t => ({ s with timeOut := t }, .ok .unit)
  | .resetProblem => unitRes s.resetProblem
  | .resetRoadmap => unitRes s.resetRoadmap
  | .initDistance => unitRes s.initDistance
  | .solve r => s.solve E r
  | .prepare found => s.prepare found
  | .oneStep found => s.oneStep found
  | .finish p => s.finish p
  | .directPath a b v => s.directPath E a b v
  | .addPath p => ({ s with paths := s.paths ++ [p] }, .ok (.id s.paths.length))
  | .erasePath i => if i < s.paths.length then ({ s with paths := s.paths.eraseIdx i }, .ok .unit) else (s, .error .ub)
  | .pbAddGoal q => match s.problem with
    | none => (s, .error .ub)
    | some (i, p) => ({ s with problem := some (i, { p with target := match p.target with
        | .goals l => .goals (l ++ [q])
        | _ => .goals [q] }) }, .ok .unit)
  | .pbSteeringMethod n => match s.problem with
    | none => (s, .error .ub)
    | some (i, p) => ({ s with problem := some (i, { p with sm := ⟨n, p.cset⟩ }) }, .ok .unit)
  | .pbShooter n => match s.problem with
    | none => (s, .error .ub)
    | some (i, p) => ({ s with problem := some (i, { p with shooter := n }) }, .ok .unit)

/-- A session: the calls with their outcomes, and the state reached. -/
def run (E : Env Q P C K) (s : St Q P C K) : List (Op Q P C K) → St Q P C K × List (Op Q P C K × Res)
  | [] => (s, [])
  | o :: l => ((run E (step E s o).1 l).1, (o, (step E s o).2) :: (run E (step E s o).1 l).2)

end Verif.Session
