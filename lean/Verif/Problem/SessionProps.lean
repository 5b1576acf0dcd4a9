import Verif.Problem.Session
set_option linter.unusedSectionVars false
set_option linter.unusedVariables false

/-! # Sessions with `ProblemSolver`: theorems -/
namespace Verif.Session
variable {Q P C K : Type} {E : Env Q P C K} {s : St Q P C K}

/-! ## Specification: what a session has selected -/

/-- The value of the last successful call on which `f` is defined, or the default value. -/
def lastOk {α : Type} (f : Op Q P C K → Option α) (d : α) : List (Op Q P C K × Res) → α
  | [] => d
  | (o, .ok _) :: t => lastOk f ((f o).getD d) t
  | (_, .error _) :: t => lastOk f d t

def selShooter : Op Q P C K → Option String
  | .shooterType n => some n
  | _ => none
def selSteer : Op Q P C K → Option String
  | .steeringMethodType n => some n
  | _ => none
def selPlanner : Op Q P C K → Option String
  | .plannerType n => some n
  | _ => none
def selDistance : Op Q P C K → Option String
  | .distanceType n => some n
  | _ => none
def selProjector : Op Q P C K → Option (String × K)
  | .pathProjectorType n t => some (n, t)
  | _ => none
def selValidation : Op Q P C K → Option (String × K)
  | .pathValidationType n t => some (n, t)
  | _ => none
def selMaxIter : Op Q P C K → Option Nat
  | .maxIterPathPlanning n => some n
  | _ => none
def selTimeOut : Op Q P C K → Option (Option K)
  | .timeOut t => some t
  | _ => none
def selInit : Op Q P C K → Option (Option Q)
  | .initConfig q => some (some q)
  | _ => none

/-- Goal configurations: those added after the last reset. -/
def goalsOf (d : List Q) : List (Op Q P C K × Res) → List Q
  | [] => d
  | (.addGoalConfig q, _) :: t => goalsOf (d ++ [q]) t
  | (.resetGoalConfigs, _) :: t => goalsOf [] t
  | _ :: t => goalsOf d t

/-- Goal constraints: those of the last call to `setGoalConstraints` unless they were reset, with the error threshold and the maximal number of iterations at that time. -/
def taskOf (e : K) (n : Nat) (d : Option (K × Nat × List String)) : List (Op Q P C K × Res) → Option (K × Nat × List String)
  | [] => d
  | (.errorThreshold e', _) :: t => taskOf e' n d t
  | (.maxIterProjection n', _) :: t => taskOf e n' d t
  | (.setGoalConstraints l, .ok _) :: t => taskOf e n (some (e, n, l)) t
  | (.resetGoalConstraints, _) :: t => taskOf e n none t
  | _ :: t => taskOf e n d t

/-- Optimizers: those added after the last reset, in order. -/
def optsOf (d : List String) : List (Op Q P C K × Res) → List String
  | [] => d
  | (.addPathOptimizer n, .ok _) :: t => optsOf (d ++ [n]) t
  | (.clearPathOptimizers, _) :: t => optsOf [] t
  | _ :: t => optsOf d t

/-! ## Settings -/

/-- Members that only change by the calls that set them. -/
structure Sel (Q K : Type) where
  reg : Kind → List String
  numerical : List String
  projType : String
  projTol : K
  plannerType : String
  init : Option Q
  goals : List Q
  shooterType : String
  distType : String
  smType : String
  optTypes : List String
  pvType : String
  pvTol : K
  cvTypes : List String
  errThr : K
  maxIterProj : Nat
  maxIter : Nat
  timeOut : Option K

def St.sel (s : St Q P C K) : Sel Q K := ⟨s.reg, s.numerical, s.projType, s.projTol, s.plannerType, s.init, s.goals, s.shooterType, s.distType, s.smType, s.optTypes, s.pvType,
  s.pvTol, s.cvTypes, s.errThr, s.maxIterProj, s.maxIter, s.timeOut⟩

def Sel.has (x : Sel Q K) (k : Kind) (n : String) : Bool := (x.reg k).contains n

def selStep (x : Sel Q K) : Op Q P C K → Sel Q K
  | .register k n => { x with reg := fun k' => if k' = k then x.reg k' ++ [n] else x.reg k' }
  | .addNumericalConstraint n => { x with numerical := x.numerical ++ [n] }
  | .initConfig q => { x with init := some q }
  | .addGoalConfig q => { x with goals := x.goals ++ [q] }
  | .resetGoalConfigs => { x with goals := [] }
  | .plannerType n => if x.has .planner n = true then { x with plannerType := n } else x
  | .distanceType n => if x.has .distance n = true then { x with distType := n } else x
  | .steeringMethodType n => if x.has .steering n = true then { x with smType := n } else x
  | .shooterType n => if x.has .shooter n = true then { x with shooterType := n } else x
  | .addPathOptimizer n => if x.has .optimizer n = true then { x with optTypes := x.optTypes ++ [n] } else x
  | .clearPathOptimizers => { x with optTypes := [] }
  | .pathValidationType n t => if x.has .pathValidation n = true then { x with pvType := n, pvTol := t } else x
  | .pathProjectorType n t => if x.has .projector n = true then { x with projType := n, projTol := t } else x
  | .addConfigValidation n => if x.has .configValidation n = true then { x with cvTypes := x.cvTypes ++ [n] } else x
  | .clearConfigValidations => { x with cvTypes := [] }
  | .maxIterProjection n => { x with maxIterProj := n }
  | .errorThreshold e => { x with errThr := e }
  | .maxIterPathPlanning n => { x with maxIter := n }
  | .timeOut t => { x with timeOut := t }
  | _ => x

theorem resetRoadmap_sel : s.resetRoadmap.1.sel = s.sel := by
  unfold St.resetRoadmap; split <;> rfl
theorem initPathValidation_sel : s.initPathValidation.1.sel = s.sel := by
  unfold St.initPathValidation; split
  · rfl
  · split <;> rfl
theorem initConfigValidation_sel : s.initConfigValidation.1.sel = s.sel := by
  unfold St.initConfigValidation; split
  · rfl
  · split <;> rfl
theorem initDistance_sel : s.initDistance.1.sel = s.sel := by
  unfold St.initDistance; split
  · rfl
  · split <;> rfl
theorem initSteeringMethod_sel : s.initSteeringMethod.1.sel = s.sel := by
  unfold St.initSteeringMethod; split
  · rfl
  · split <;> rfl
theorem initPathProjector_sel : s.initPathProjector.1.sel = s.sel := by
  unfold St.initPathProjector; split
  · rfl
  · split <;> rfl
theorem initPlanner_sel (i : Nat) : (s.initPlanner i).1.sel = s.sel := by
  unfold St.initPlanner; split
  · split <;> rfl
  · rfl
theorem initTarget_sel (i : Nat) (p : Pb Q C K) : (s.initTarget i p).1.sel = s.sel := by
  unfold St.initTarget; split <;> rfl

theorem resetProblem_sel : s.resetProblem.1.sel = s.sel := by
  unfold St.resetProblem
  split
  · simp only
    split
    · rename_i h; rw [← show _ = _ from congrArg (fun x => x.1.sel) h, resetRoadmap_sel]; rfl
    · rename_i s2 h
      have h2 : s2.sel = s.sel := by rw [← show _ = _ from congrArg (fun x => x.1.sel) h, resetRoadmap_sel]; rfl
      split
      · rename_i h; rw [← show _ = _ from congrArg (fun x => x.1.sel) h, initPathValidation_sel]; exact h2
      · rename_i h; rw [initConfigValidation_sel, ← show _ = _ from congrArg (fun x => x.1.sel) h, initPathValidation_sel]; exact h2
  · rfl

theorem initProblem_sel : s.initProblem.1.sel = s.sel := by
  unfold St.initProblem
  split
  · rfl
  · split
    · simp only
      split
      · rename_i h; rw [← show _ = _ from congrArg (fun x => x.1.sel) h, initSteeringMethod_sel]; rfl
      · rename_i s2 h
        have h2 : s2.sel = s.sel := by rw [← show _ = _ from congrArg (fun x => x.1.sel) h, initSteeringMethod_sel]; rfl
        split
        · rename_i h; rw [← show _ = _ from congrArg (fun x => x.1.sel) h, initPlanner_sel]; exact h2
        · rename_i s3 h
          have h3 : s3.sel = s.sel := by rw [← show _ = _ from congrArg (fun x => x.1.sel) h, initPlanner_sel]; exact h2
          split
          · rename_i h; rw [← show _ = _ from congrArg (fun x => x.1.sel) h, initPathProjector_sel]; exact h3
          · rename_i s4 h
            have h4 : s4.sel = s.sel := by rw [← show _ = _ from congrArg (fun x => x.1.sel) h, initPathProjector_sel]; exact h3
            split
            · exact h4
            · rw [initTarget_sel]; exact h4
    · rfl

theorem optimizePath_sel (p : P) : (s.optimizePath E p).1.sel = s.sel := by
  unfold St.optimizePath
  have h : s.createPathOptimizers.1.sel = s.sel := by unfold St.createPathOptimizers; split <;> rfl
  split
  · rename_i h1; rw [h1] at h; exact h
  · rename_i h1; rw [h1] at h; exact h

theorem solve_sel (r : Option P) : (s.solve E r).1.sel = s.sel := by
  unfold St.solve
  have h : s.initProblem.1.sel = s.sel := initProblem_sel
  split
  · rename_i h1; rw [h1] at h; exact h
  · rename_i h1; rw [h1] at h
    split
    · simp only
      split
      · exact h
      · split
        · rename_i h2; rw [← show _ = _ from congrArg (fun x => x.1.sel) h2, optimizePath_sel]; exact h
        · rename_i h2; rw [← show _ = _ from congrArg (fun x => x.1.sel) h2, optimizePath_sel]; exact h
    · exact h

theorem prepare_sel (b : Bool) : (s.prepare b).1.sel = s.sel := by
  unfold St.prepare
  have h : s.initProblem.1.sel = s.sel := initProblem_sel
  split
  · rename_i h1; rw [h1] at h; exact h
  · rename_i h1; rw [h1] at h
    split
    · exact h
    · exact h

theorem step_sel (o : Op Q P C K) : (step E s o).1.sel = selStep s.sel o := by
  cases o with
  | register k n => rfl
  | addNumericalConstraint n => rfl
  | robot => exact resetProblem_sel
  | initConfig q => rfl
  | addGoalConfig q => rfl
  | resetGoalConfigs => rfl
  | setGoalConstraints l => simp only [step]; split <;> rfl
  | resetGoalConstraints => rfl
  | plannerType n =>
    simp only [step, selStep]
    by_cases h : s.has .planner n = true
    · rw [if_pos h, if_pos (show s.sel.has .planner n = true from h)]; rfl
    · rw [if_neg h, if_neg (show ¬ s.sel.has .planner n = true from h)]
  | distanceType n =>
    simp only [step, selStep]
    by_cases h : s.has .distance n = true
    · rw [if_pos h, if_pos (show s.sel.has .distance n = true from h)]; rfl
    · rw [if_neg h, if_neg (show ¬ s.sel.has .distance n = true from h)]
  | steeringMethodType n =>
    simp only [step, selStep]
    by_cases h : s.has .steering n = true
    · rw [if_pos h, if_pos (show s.sel.has .steering n = true from h)]
      split
      · rfl
      · exact initSteeringMethod_sel
    · rw [if_neg h, if_neg (show ¬ s.sel.has .steering n = true from h)]
  | shooterType n =>
    simp only [step, selStep]
    by_cases h : s.has .shooter n = true
    · rw [if_pos h, if_pos (show s.sel.has .shooter n = true from h)]; rfl
    · rw [if_neg h, if_neg (show ¬ s.sel.has .shooter n = true from h)]
  | addPathOptimizer n =>
    simp only [step, selStep]
    by_cases h : s.has .optimizer n = true
    · rw [if_pos h, if_pos (show s.sel.has .optimizer n = true from h)]; rfl
    · rw [if_neg h, if_neg (show ¬ s.sel.has .optimizer n = true from h)]
  | clearPathOptimizers => rfl
  | pathValidationType n t =>
    simp only [step, selStep]
    by_cases h : s.has .pathValidation n = true
    · rw [if_pos h, if_pos (show s.sel.has .pathValidation n = true from h)]
      split
      · exact initPathValidation_sel
      · rfl
    · rw [if_neg h, if_neg (show ¬ s.sel.has .pathValidation n = true from h)]
  | pathProjectorType n t =>
    simp only [step, selStep]
    by_cases h : s.has .projector n = true
    · rw [if_pos h, if_pos (show s.sel.has .projector n = true from h)]
      split
      · exact initPathProjector_sel
      · rfl
    · rw [if_neg h, if_neg (show ¬ s.sel.has .projector n = true from h)]
  | addConfigValidation n =>
    simp only [step, selStep]
    by_cases h : s.has .configValidation n = true
    · rw [if_pos h, if_pos (show s.sel.has .configValidation n = true from h)]
      split
      · rfl
      · exact initConfigValidation_sel
    · rw [if_neg h, if_neg (show ¬ s.sel.has .configValidation n = true from h)]
  | clearConfigValidations => simp only [step]; split <;> rfl
  | addConstraint c =>
    simp only [step]
    split
    · split <;> rfl
    · rfl
    · rfl
  | resetConstraints => simp only [step]; split <;> rfl
  | addToProjector n =>
    simp only [step, St.addToProjector]
    split
    · rfl
    · split <;> rfl
  | maxIterProjection n => rfl
  | errorThreshold e => rfl
  | maxIterPathPlanning n => rfl
  | timeOut t => rfl
  | resetProblem => exact resetProblem_sel
  | resetRoadmap => exact resetRoadmap_sel
  | initDistance => exact initDistance_sel
  | solve r => exact solve_sel r
  | prepare b => exact prepare_sel b
  | oneStep b =>
    simp only [step, St.oneStep]
    split
    · rfl
    · split <;> rfl
  | finish p =>
    simp only [step, St.finish]
    split
    · rfl
    · split
      · rfl
      · split <;> rfl
    · rfl
  | directPath a b v =>
    simp only [step, St.directPath]
    split
    · rfl
    · split
      · rfl
      · split
        · rfl
        · split
          · split <;> rfl
          · rfl
  | addPath p => rfl
  | erasePath i => simp only [step]; split <;> rfl
  | pbAddGoal q => simp only [step]; split <;> rfl
  | pbSteeringMethod n => simp only [step]; split <;> rfl
  | pbShooter n => simp only [step]; split <;> rfl

/-! ## The names that are selected have a builder -/

structure Names (x : Sel Q K) : Prop where
  shooter : x.has .shooter x.shooterType = true
  steering : x.has .steering x.smType = true
  validation : x.has .pathValidation x.pvType = true
  config : ∀ n ∈ x.cvTypes, x.has .configValidation n = true
  projector : x.has .projector x.projType = true
  planner : x.has .planner x.plannerType = true
  optimizer : ∀ n ∈ x.optTypes, x.has .optimizer n = true

theorem start_names (a b c : K) : Names (St.start a b c : St Q P C K).sel := by
  refine ⟨by simp [Sel.has, St.sel, St.start], by simp [Sel.has, St.sel, St.start], by simp [Sel.has, St.sel, St.start], ?_, by simp [Sel.has, St.sel, St.start],
    by simp [Sel.has, St.sel, St.start], fun n hn => by simp [St.sel, St.start] at hn⟩
  intro n hn
  simp only [Sel.has, St.sel, St.start] at hn ⊢
  simpa using hn

theorem selStep_names {x : Sel Q K} (h : Names x) (o : Op Q P C K) : Names (selStep x o) := by
  cases o with
  | register k n =>
    have mono : ∀ k' m, x.has k' m = true → (if k' = k then x.reg k' ++ [n] else x.reg k').contains m = true := by
      intro k' m hm
      unfold Sel.has at hm
      split
      · simp only [List.contains_iff_mem, List.mem_append] at hm ⊢; exact Or.inl hm
      · exact hm
    exact ⟨mono _ _ h.shooter, mono _ _ h.steering, mono _ _ h.validation, fun n hn => mono _ _ (h.config n hn), mono _ _ h.projector, mono _ _ h.planner,
      fun n hn => mono _ _ (h.optimizer n hn)⟩
  | plannerType n =>
    simp only [selStep]
    by_cases hn : x.has .planner n = true
    · rw [if_pos hn]; exact ⟨h.shooter, h.steering, h.validation, h.config, h.projector, hn, h.optimizer⟩
    · rw [if_neg hn]; exact h
  | distanceType n => simp only [selStep]; split <;> exact ⟨h.shooter, h.steering, h.validation, h.config, h.projector, h.planner, h.optimizer⟩
  | steeringMethodType n =>
    simp only [selStep]
    by_cases hn : x.has .steering n = true
    · rw [if_pos hn]; exact ⟨h.shooter, hn, h.validation, h.config, h.projector, h.planner, h.optimizer⟩
    · rw [if_neg hn]; exact h
  | shooterType n =>
    simp only [selStep]
    by_cases hn : x.has .shooter n = true
    · rw [if_pos hn]; exact ⟨hn, h.steering, h.validation, h.config, h.projector, h.planner, h.optimizer⟩
    · rw [if_neg hn]; exact h
  | addPathOptimizer n =>
    simp only [selStep]
    by_cases hn : x.has .optimizer n = true
    · rw [if_pos hn]
      refine ⟨h.shooter, h.steering, h.validation, h.config, h.projector, h.planner, fun m hm => ?_⟩
      simp only [List.mem_append, List.mem_singleton] at hm
      rcases hm with hm | rfl
      · exact h.optimizer m hm
      · exact hn
    · rw [if_neg hn]; exact h
  | clearPathOptimizers => exact ⟨h.shooter, h.steering, h.validation, h.config, h.projector, h.planner, fun m hm => (by cases hm)⟩
  | pathValidationType n t =>
    simp only [selStep]
    by_cases hn : x.has .pathValidation n = true
    · rw [if_pos hn]; exact ⟨h.shooter, h.steering, hn, h.config, h.projector, h.planner, h.optimizer⟩
    · rw [if_neg hn]; exact h
  | pathProjectorType n t =>
    simp only [selStep]
    by_cases hn : x.has .projector n = true
    · rw [if_pos hn]; exact ⟨h.shooter, h.steering, h.validation, h.config, hn, h.planner, h.optimizer⟩
    · rw [if_neg hn]; exact h
  | addConfigValidation n =>
    simp only [selStep]
    by_cases hn : x.has .configValidation n = true
    · rw [if_pos hn]
      refine ⟨h.shooter, h.steering, h.validation, fun m hm => ?_, h.projector, h.planner, h.optimizer⟩
      simp only [List.mem_append, List.mem_singleton] at hm
      rcases hm with hm | rfl
      · exact h.config m hm
      · exact hn
    · rw [if_neg hn]; exact h
  | clearConfigValidations => exact ⟨h.shooter, h.steering, h.validation, fun m hm => (by cases hm), h.projector, h.planner, h.optimizer⟩
  | _ => exact ⟨h.shooter, h.steering, h.validation, h.config, h.projector, h.planner, h.optimizer⟩

/-! ## Invariant of a session in which a robot was given -/

structure Good (s : St Q P C K) (i : Nat) (p : Pb Q C K) : Prop where
  problem : s.problem = some (i, p)
  fresh : i < s.probs
  pv : p.pv = (s.pvType, s.pvTol)
  cvs : p.cvs = s.cvTypes
  cset : s.cset = some p.cset
  sm : p.sm.cset = p.cset
  set : p.cset < s.sets.length

structure Inv (s : St Q P C K) : Prop where
  names : Names s.sel
  robot : s.robot = true
  good : ∃ i p, Good s i p
  road : ∃ r, s.roadmap = some r ∧ r < s.roads.length

theorem addValidations_all (ok : String → Bool) : ∀ l acc, (∀ n ∈ l, ok n = true) → addValidations ok l acc = (acc ++ l, none) := by
  intro l
  induction l with
  | nil => intro acc _; simp [addValidations]
  | cons n l ih =>
    intro acc h
    rw [addValidations, if_pos (h n (List.mem_cons_self ..)), ih _ fun m hm => h m (List.mem_cons_of_mem _ hm)]
    simp

theorem initConfigValidation_ok (hn : Names s.sel) (hr : s.robot = true) {i : Nat} {p : Pb Q C K} (hp : s.problem = some (i, p)) :
    s.initConfigValidation = ({ s with problem := some (i, { p with cvs := s.cvTypes }) }, none) := by
  unfold St.initConfigValidation
  rw [if_neg (by rw [hr]; decide), hp]
  simp only
  rw [addValidations_all (s.has .configValidation) s.cvTypes [] (fun n h => hn.config n h)]
  rfl

theorem initPathValidation_ok {i : Nat} {p : Pb Q C K} (hp : s.problem = some (i, p)) (hn : Names s.sel) :
    s.initPathValidation = ({ s with problem := some (i, { p with pv := (s.pvType, s.pvTol) }) }, none) := by
  unfold St.initPathValidation
  rw [hp]
  simp only
  rw [if_pos (show s.has .pathValidation s.pvType = true from hn.validation)]

/-- The problem made by `resetProblem`. -/
def newPb (s : St Q P C K) (c : Nat) : Pb Q C K := ⟨"Weighed", none, .goals [], ⟨"Straight", c⟩, s.cvTypes, (s.pvType, s.pvTol), none, c, "Uniform"⟩

theorem resetProblem_eq (hn : Names s.sel) (hr : s.robot = true) {c : Nat} (hc : s.cset = some c) :
    s.resetProblem = ({ s with sets := s.sets ++ [⟨[], none⟩], probs := s.probs + 1, roads := s.roads ++ [⟨"Weighed", false, false⟩], roadmap := some s.roads.length, problem := some (s.probs, newPb s c) }, none) := by
  unfold St.resetProblem
  rw [hr, hc]
  simp only [St.resetRoadmap]
  rw [initPathValidation_ok (i := s.probs) (p := { (Pb.create s.sets.length s.pvTol : Pb Q C K) with cset := c, sm := { (Pb.create s.sets.length s.pvTol : Pb Q C K).sm with cset := c } }) rfl]
  · simp only
    rw [initConfigValidation_ok (i := s.probs) (p := { (Pb.create s.sets.length s.pvTol : Pb Q C K) with cset := c, sm := { (Pb.create s.sets.length s.pvTol : Pb Q C K).sm with cset := c }, pv := (s.pvType, s.pvTol) }) _ rfl rfl]
    · rw [← hr, ← hc]; rfl
    · exact hn
  · exact hn

theorem resetProblem_inv (hn : Names s.sel) (hr : s.robot = true) {c : Nat} (hc : s.cset = some c) (hl : c < s.sets.length) : Inv s.resetProblem.1 := by
  rw [resetProblem_eq hn hr hc]
  refine ⟨hn, hr, ⟨s.probs, _, rfl, ?_, rfl, rfl, hc, rfl, ?_⟩, s.roads.length, rfl, ?_⟩
  · exact Nat.lt_succ_self _
  · simp only [List.length_append, List.length_singleton, newPb]; omega
  · simp

/-- The problem after `initProblem`. -/
def ready (s : St Q P C K) (p : Pb Q C K) : Pb Q C K :=
  { p with shooter := s.shooterType, sm := ⟨s.smType, p.cset⟩, proj := buildProjector s.projType s.projTol { p with shooter := s.shooterType, sm := ⟨s.smType, p.cset⟩ } s.sets, init := s.init }

theorem initProblem_eq (h : Inv s) {i r : Nat} {p : Pb Q C K} (hp : s.problem = some (i, p)) (hr : s.roadmap = some r) :
    s.initProblem = if s.goals.isEmpty = false ∧ s.target.isTask = true then
      ({ s with planner := some ⟨s.plannerType, i, r, s.maxIter, s.timeOut⟩, problem := some (i, ready s p) }, some .logic)
    else ({ s with planner := some ⟨s.plannerType, i, r, s.maxIter, s.timeOut⟩, target := if s.target.isTask = true then s.target else .goals s.goals, problem := some (i, { ready s p with target := if s.target.isTask = true then s.target else .goals s.goals }) }, none) := by
  have h1 : s.has .shooter s.shooterType = true := h.names.shooter
  have h2 : s.has .steering s.smType = true := h.names.steering
  have h3 : s.has .planner s.plannerType = true := h.names.planner
  have h4 : s.has .projector s.projType = true := h.names.projector
  simp only [St.has] at h1 h2 h3 h4
  unfold St.initProblem
  rw [hp]
  simp only [St.initSteeringMethod, St.initPlanner, St.initPathProjector, St.has, h1, h2, h3, h4, if_true, hr, St.initTarget]
  by_cases hg : s.goals.isEmpty = false ∧ s.target.isTask = true
  · simp only [if_pos hg]; rfl
  · simp only [if_neg hg]; rfl

theorem initProblem_inv (h : Inv s) : Inv s.initProblem.1 := by
  obtain ⟨i, p, hg⟩ := h.good
  obtain ⟨r, hr, hl⟩ := h.road
  have hn : Names s.initProblem.1.sel := by rw [initProblem_sel]; exact h.names
  rw [initProblem_eq h hg.problem hr] at hn ⊢
  split at hn <;> rename_i hc
  · rw [if_pos hc]; exact ⟨hn, h.robot, ⟨i, _, rfl, hg.fresh, hg.pv, hg.cvs, hg.cset, rfl, hg.set⟩, r, hr, hl⟩
  · rw [if_neg hc]; exact ⟨hn, h.robot, ⟨i, _, rfl, hg.fresh, hg.pv, hg.cvs, hg.cset, rfl, hg.set⟩, r, hr, hl⟩

theorem Inv.roads (h : Inv s) (f : List Road → List Road) (hf : ∀ l, (f l).length = l.length) (g : List P → List P) : Inv { s with roads := f s.roads, paths := g s.paths } := by
  obtain ⟨i, p, hg⟩ := h.good
  obtain ⟨r, hr, hl⟩ := h.road
  exact ⟨h.names, h.robot, ⟨i, p, hg.problem, hg.fresh, hg.pv, hg.cvs, hg.cset, hg.sm, hg.set⟩, r, hr, by simpa only [hf] using hl⟩

theorem Inv.opts (h : Inv s) (l : List String) (g : List P) : Inv { s with optimizers := l, paths := g } := by
  obtain ⟨i, p, hg⟩ := h.good
  exact ⟨h.names, h.robot, ⟨i, p, hg.problem, hg.fresh, hg.pv, hg.cvs, hg.cset, hg.sm, hg.set⟩, h.road⟩

theorem Inv.sets (h : Inv s) (l : List (CSet C K)) (hl : l.length = s.sets.length) : Inv { s with sets := l } := by
  obtain ⟨i, p, hg⟩ := h.good
  exact ⟨h.names, h.robot, ⟨i, p, hg.problem, hg.fresh, hg.pv, hg.cvs, hg.cset, hg.sm, by rw [hl]; exact hg.set⟩, h.road⟩

theorem optimizePath_inv (h : Inv s) (p : P) : Inv (s.optimizePath E p).1 := by
  unfold St.optimizePath
  have h1 : Inv s.createPathOptimizers.1 := by
    unfold St.createPathOptimizers
    split
    · exact h
    · exact h.opts _ _
  split
  · rename_i h2; rw [h2] at h1; exact h1
  · rename_i h2; rw [h2] at h1; exact h1.opts _ _

theorem step_steering (E : Env Q P C K) {n : String} (hc : s.has .steering n = true) {i : Nat} {p : Pb Q C K} (hp : s.problem = some (i, p)) :
    step E s (.steeringMethodType n) = ({ s with smType := n, problem := some (i, { p with sm := ⟨n, p.cset⟩ }) }, .ok .unit) := by
  simp only [step, if_pos hc, hp, St.initSteeringMethod, unitRes]
  split
  · rfl
  · rename_i h0; exact absurd hc h0

theorem step_pathValidation (E : Env Q P C K) {n : String} {t : K} (hc : s.has .pathValidation n = true) (hr : s.robot = true) {i : Nat} {p : Pb Q C K} (hp : s.problem = some (i, p)) :
    step E s (.pathValidationType n t) = ({ s with pvType := n, pvTol := t, problem := some (i, { p with pv := (n, t) }) }, .ok .unit) := by
  have h1 : s.robot = true ∧ s.problem.isSome = true := ⟨hr, by rw [hp]; rfl⟩
  simp only [step, if_pos hc, if_pos h1]
  simp only [St.initPathValidation, unitRes, hp]
  split
  · rfl
  · rename_i h0; exact absurd hc h0

theorem step_pathProjector (E : Env Q P C K) {n : String} {t : K} (hc : s.has .projector n = true) (hr : s.robot = true) {i : Nat} {p : Pb Q C K} (hp : s.problem = some (i, p)) :
    step E s (.pathProjectorType n t) = ({ s with projType := n, projTol := t, problem := some (i, { p with proj := buildProjector n t p s.sets }) }, .ok .unit) := by
  have h1 : s.robot = true ∧ s.problem.isSome = true := ⟨hr, by rw [hp]; rfl⟩
  simp only [step, if_pos hc, if_pos h1]
  simp only [St.initPathProjector, unitRes, hp]
  split
  · rfl
  · rename_i h0; exact absurd hc h0

theorem step_configValidation (E : Env Q P C K) {n : String} (hn : Names s.sel) (hc : s.has .configValidation n = true) (hr : s.robot = true) {i : Nat} {p : Pb Q C K}
    (hp : s.problem = some (i, p)) :
    step E s (.addConfigValidation n) = ({ s with cvTypes := s.cvTypes ++ [n], problem := some (i, { p with cvs := s.cvTypes ++ [n] }) }, .ok .unit) := by
  have hn' : Names (selStep s.sel (.addConfigValidation n : Op Q P C K)) := selStep_names hn _
  simp only [selStep] at hn'
  rw [if_pos (show s.sel.has .configValidation n = true from hc)] at hn'
  have h2 := initConfigValidation_ok (s := { s with cvTypes := s.cvTypes ++ [n] }) hn' hr hp
  simp only [step]
  rw [if_pos hc]
  split
  · rename_i h0; rw [hp] at h0; cases h0
  · rw [h2]; rfl

theorem step_inv (h : Inv s) (o : Op Q P C K) : Inv (step E s o).1 := by
  have hn : Names (step E s o).1.sel := by rw [step_sel]; exact selStep_names h.names o
  obtain ⟨i, p, hg⟩ := h.good
  have hprob : s.problem.isSome = true := by rw [hg.problem]; rfl
  cases o with
  | register k n => exact ⟨hn, h.robot, ⟨i, p, hg.problem, hg.fresh, hg.pv, hg.cvs, hg.cset, hg.sm, hg.set⟩, h.road⟩
  | robot =>
    exact resetProblem_inv (s := { s with robot := true, cset := some s.sets.length, sets := s.sets ++ [⟨[], none⟩] }) h.names rfl rfl (by simp)
  | setGoalConstraints l =>
    simp only [step, hg.problem] at hn ⊢
    exact ⟨hn, h.robot, ⟨i, p, rfl, hg.fresh, hg.pv, hg.cvs, hg.cset, hg.sm, hg.set⟩, h.road⟩
  | plannerType n =>
    simp only [step] at hn ⊢
    split at hn <;> rename_i hc
    · rw [if_pos hc]; exact ⟨hn, h.robot, ⟨i, p, hg.problem, hg.fresh, hg.pv, hg.cvs, hg.cset, hg.sm, hg.set⟩, h.road⟩
    · rw [if_neg hc]; exact h
  | distanceType n =>
    simp only [step] at hn ⊢
    split at hn <;> rename_i hc
    · rw [if_pos hc]; exact ⟨hn, h.robot, ⟨i, p, hg.problem, hg.fresh, hg.pv, hg.cvs, hg.cset, hg.sm, hg.set⟩, h.road⟩
    · rw [if_neg hc]; exact h
  | steeringMethodType n =>
    by_cases hc : s.has .steering n = true
    · rw [step_steering E hc hg.problem] at hn ⊢
      exact ⟨hn, h.robot, ⟨i, _, rfl, hg.fresh, hg.pv, hg.cvs, hg.cset, rfl, hg.set⟩, h.road⟩
    · simp only [step]; rw [if_neg hc]; exact h
  | shooterType n =>
    simp only [step] at hn ⊢
    split at hn <;> rename_i hc
    · rw [if_pos hc]
      simp only [h.robot, if_true, hg.problem, Option.map_some] at hn ⊢
      exact ⟨hn, rfl, ⟨i, _, rfl, hg.fresh, hg.pv, hg.cvs, hg.cset, hg.sm, hg.set⟩, h.road⟩
    · rw [if_neg hc]; exact h
  | addPathOptimizer n =>
    simp only [step] at hn ⊢
    split at hn <;> rename_i hc
    · rw [if_pos hc]; exact ⟨hn, h.robot, ⟨i, p, hg.problem, hg.fresh, hg.pv, hg.cvs, hg.cset, hg.sm, hg.set⟩, h.road⟩
    · rw [if_neg hc]; exact h
  | pathValidationType n t =>
    by_cases hc : s.has .pathValidation n = true
    · rw [step_pathValidation E hc h.robot hg.problem] at hn ⊢
      exact ⟨hn, h.robot, ⟨i, _, rfl, hg.fresh, rfl, hg.cvs, hg.cset, hg.sm, hg.set⟩, h.road⟩
    · simp only [step]; rw [if_neg hc]; exact h
  | pathProjectorType n t =>
    by_cases hc : s.has .projector n = true
    · rw [step_pathProjector E hc h.robot hg.problem] at hn ⊢
      exact ⟨hn, h.robot, ⟨i, _, rfl, hg.fresh, hg.pv, hg.cvs, hg.cset, hg.sm, hg.set⟩, h.road⟩
    · simp only [step]; rw [if_neg hc]; exact h
  | addConfigValidation n =>
    by_cases hc : s.has .configValidation n = true
    · rw [step_configValidation E h.names hc h.robot hg.problem] at hn ⊢
      exact ⟨hn, h.robot, ⟨i, _, rfl, hg.fresh, hg.pv, rfl, hg.cset, hg.sm, hg.set⟩, h.road⟩
    · simp only [step]; rw [if_neg hc]; exact h
  | clearConfigValidations =>
    simp only [step, hg.problem] at hn ⊢
    exact ⟨hn, h.robot, ⟨i, _, rfl, hg.fresh, hg.pv, rfl, hg.cset, hg.sm, hg.set⟩, h.road⟩
  | addConstraint c =>
    clear hn
    simp only [step]
    split
    · split
      · exact h
      · exact h.sets _ List.length_set
    · exact h
    · exact h
  | resetConstraints =>
    simp only [step, h.robot, if_true, hg.problem, Option.map_some] at hn ⊢
    exact ⟨hn, rfl, ⟨i, _, rfl, hg.fresh, hg.pv, hg.cvs, rfl, rfl, by simp⟩, h.road⟩
  | addToProjector n =>
    clear hn
    simp only [step, St.addToProjector]
    split
    · exact h
    · split
      · exact h.sets _ ((List.length_modify ..).trans (List.length_modify ..))
      · exact h.sets _ (List.length_modify ..)
  | maxIterProjection n =>
    simp only [step, hg.cset]
    have := h.sets (s.sets.modify p.cset (CSet.mapProj (fun x => (x.1, n, x.2.2)))) (by simp)
    exact ⟨hn, this.robot, ⟨i, p, hg.problem, hg.fresh, hg.pv, hg.cvs, rfl, hg.sm, by simp only [List.length_modify]; exact hg.set⟩, this.road⟩
  | errorThreshold e =>
    simp only [step, hg.cset]
    have := h.sets (s.sets.modify p.cset (CSet.mapProj (fun x => (e, x.2.1, x.2.2)))) (by simp)
    exact ⟨hn, this.robot, ⟨i, p, hg.problem, hg.fresh, hg.pv, hg.cvs, rfl, hg.sm, by simp only [List.length_modify]; exact hg.set⟩, this.road⟩
  | resetProblem => exact resetProblem_inv h.names h.robot hg.cset hg.set
  | resetRoadmap =>
    simp only [step, St.resetRoadmap, hg.problem, unitRes] at hn ⊢
    exact ⟨hn, h.robot, ⟨i, p, rfl, hg.fresh, hg.pv, hg.cvs, hg.cset, hg.sm, hg.set⟩, s.roads.length, rfl, by simp⟩
  | initDistance =>
    simp only [step, St.initDistance, hg.problem, unitRes] at hn ⊢
    split at hn <;> rename_i hc
    · rw [if_pos hc]; exact ⟨hn, h.robot, ⟨i, _, rfl, hg.fresh, hg.pv, hg.cvs, hg.cset, hg.sm, hg.set⟩, h.road⟩
    · rw [if_neg hc]; exact h
  | solve r =>
    simp only [step, St.solve]
    have h1 := initProblem_inv h
    split
    · rename_i h2; rw [h2] at h1; exact h1
    · rename_i s1 h2; rw [h2] at h1
      split
      · rename_i pl i' p' _ _
        have h3 := h1.roads (fun l => l.modify pl.road (tag p'.target false r.isSome)) (fun l => by simp) id
        split
        · exact h3
        · rename_i path
          have h4 := h1.roads (fun l => l.modify pl.road (tag p'.target false true)) (fun l => by simp) (· ++ [path])
          have h5 := optimizePath_inv (E := E) h4 path
          split
          · rename_i h6; rw [← show _ = _ from congrArg (fun x => x.1) h6]; exact h5
          · rename_i h6; rw [← show _ = _ from congrArg (fun x => x.1) h6]; exact h5
      · exact h1
  | prepare b =>
    simp only [step, St.prepare]
    have h1 := initProblem_inv h
    split
    · rename_i h2; rw [h2] at h1; exact h1
    · rename_i s1 h2; rw [h2] at h1
      split
      · rename_i pl i' p' _ _
        exact h1.roads (fun l => l.modify pl.road (tag p'.target false b)) (fun l => by simp) id
      · exact h1
  | oneStep b =>
    simp only [step, St.oneStep]
    split
    · exact h
    · split
      · exact h
      · rename_i pl _ _ p' _
        exact h.roads (fun l => l.modify pl.road (fun x => if x.init = true then tag p'.target true b x else x)) (fun l => by simp) id
  | finish p =>
    simp only [step, St.finish]
    split
    · exact h
    · split
      · exact h
      · split
        · exact h
        · exact h.roads id (fun _ => rfl) (· ++ [p])
    · exact h
  | directPath a b v =>
    simp only [step, St.directPath]
    split
    · exact h
    · split
      · exact h
      · split
        · exact h
        · split
          · split
            · exact h
            · rename_i dp2 _ _; exact h.roads id (fun _ => rfl) (· ++ [dp2])
          · rename_i dp _ _; exact h.roads id (fun _ => rfl) (· ++ [dp])
  | erasePath i =>
    simp only [step]
    split
    · exact h.roads id (fun _ => rfl) (·.eraseIdx i)
    · exact h
  | pbAddGoal q =>
    simp only [step, hg.problem] at hn ⊢
    exact ⟨hn, h.robot, ⟨i, _, rfl, hg.fresh, hg.pv, hg.cvs, hg.cset, hg.sm, hg.set⟩, h.road⟩
  | pbSteeringMethod n =>
    simp only [step, hg.problem] at hn ⊢
    exact ⟨hn, h.robot, ⟨i, _, rfl, hg.fresh, hg.pv, hg.cvs, hg.cset, rfl, hg.set⟩, h.road⟩
  | pbShooter n =>
    simp only [step, hg.problem] at hn ⊢
    exact ⟨hn, h.robot, ⟨i, _, rfl, hg.fresh, hg.pv, hg.cvs, hg.cset, hg.sm, hg.set⟩, h.road⟩
  | addNumericalConstraint n => exact ⟨hn, h.robot, ⟨i, p, hg.problem, hg.fresh, hg.pv, hg.cvs, hg.cset, hg.sm, hg.set⟩, h.road⟩
  | initConfig q => exact ⟨hn, h.robot, ⟨i, p, hg.problem, hg.fresh, hg.pv, hg.cvs, hg.cset, hg.sm, hg.set⟩, h.road⟩
  | addGoalConfig q => exact ⟨hn, h.robot, ⟨i, p, hg.problem, hg.fresh, hg.pv, hg.cvs, hg.cset, hg.sm, hg.set⟩, h.road⟩
  | resetGoalConfigs => exact ⟨hn, h.robot, ⟨i, p, hg.problem, hg.fresh, hg.pv, hg.cvs, hg.cset, hg.sm, hg.set⟩, h.road⟩
  | resetGoalConstraints => exact ⟨hn, h.robot, ⟨i, p, hg.problem, hg.fresh, hg.pv, hg.cvs, hg.cset, hg.sm, hg.set⟩, h.road⟩
  | clearPathOptimizers => exact ⟨hn, h.robot, ⟨i, p, hg.problem, hg.fresh, hg.pv, hg.cvs, hg.cset, hg.sm, hg.set⟩, h.road⟩
  | maxIterPathPlanning n => exact ⟨hn, h.robot, ⟨i, p, hg.problem, hg.fresh, hg.pv, hg.cvs, hg.cset, hg.sm, hg.set⟩, h.road⟩
  | timeOut t => exact ⟨hn, h.robot, ⟨i, p, hg.problem, hg.fresh, hg.pv, hg.cvs, hg.cset, hg.sm, hg.set⟩, h.road⟩
  | addPath p' => exact h.roads id (fun _ => rfl) (· ++ [p'])

end Verif.Session
