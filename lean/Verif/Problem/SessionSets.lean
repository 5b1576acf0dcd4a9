import Verif.Problem.SessionProps
set_option linter.unusedSectionVars false
set_option linter.unusedVariables false

/-! # Sessions with `ProblemSolver`: constraints and goals over a history -/
namespace Verif.Session
variable {Q P C K : Type} {E : Env Q P C K} {s : St Q P C K}

def Target.asTask : Target Q K → Option (K × Nat × List String)
  | .task e n l => some (e, n, l)
  | _ => none

theorem Target.isTask_eq (t : Target Q K) : t.isTask = t.asTask.isSome := by cases t <;> rfl

/-- Robot, constraint sets, goal constraints. -/
def St.base (s : St Q P C K) : Bool × Option Nat × List (CSet C K) × Option (K × Nat × List String) := (s.robot, s.cset, s.sets, s.target.asTask)

theorem resetRoadmap_base : s.resetRoadmap.1.base = s.base := by
  unfold St.resetRoadmap; split <;> rfl
theorem initPathValidation_base : s.initPathValidation.1.base = s.base := by
  unfold St.initPathValidation; split
  · rfl
  · split <;> rfl
theorem initConfigValidation_base : s.initConfigValidation.1.base = s.base := by
  unfold St.initConfigValidation; split
  · rfl
  · split <;> rfl
theorem initDistance_base : s.initDistance.1.base = s.base := by
  unfold St.initDistance; split
  · rfl
  · split <;> rfl
theorem initSteeringMethod_base : s.initSteeringMethod.1.base = s.base := by
  unfold St.initSteeringMethod; split
  · rfl
  · split <;> rfl
theorem initPathProjector_base : s.initPathProjector.1.base = s.base := by
  unfold St.initPathProjector; split
  · rfl
  · split <;> rfl
theorem initPlanner_base (i : Nat) : (s.initPlanner i).1.base = s.base := by
  unfold St.initPlanner; split
  · split <;> rfl
  · rfl
theorem initTarget_base (i : Nat) (p : Pb Q C K) : (s.initTarget i p).1.base = s.base := by
  unfold St.initTarget; split
  · rfl
  · simp only [St.base]
    cases ht : s.target <;> simp [Target.isTask, Target.asTask]

theorem initProblem_base : s.initProblem.1.base = s.base := by
  unfold St.initProblem
  split
  · rfl
  · split
    · simp only
      split
      · rename_i h; rw [← show _ = _ from congrArg (fun x => x.1.base) h, initSteeringMethod_base]; rfl
      · rename_i s2 h
        have h2 : s2.base = s.base := by rw [← show _ = _ from congrArg (fun x => x.1.base) h, initSteeringMethod_base]; rfl
        split
        · rename_i h; rw [← show _ = _ from congrArg (fun x => x.1.base) h, initPlanner_base]; exact h2
        · rename_i s3 h
          have h3 : s3.base = s.base := by rw [← show _ = _ from congrArg (fun x => x.1.base) h, initPlanner_base]; exact h2
          split
          · rename_i h; rw [← show _ = _ from congrArg (fun x => x.1.base) h, initPathProjector_base]; exact h3
          · rename_i s4 h
            have h4 : s4.base = s.base := by rw [← show _ = _ from congrArg (fun x => x.1.base) h, initPathProjector_base]; exact h3
            split
            · exact h4
            · rw [initTarget_base]; exact h4
    · rfl

theorem optimizePath_base (p : P) : (s.optimizePath E p).1.base = s.base := by
  unfold St.optimizePath
  have h : s.createPathOptimizers.1.base = s.base := by unfold St.createPathOptimizers; split <;> rfl
  split
  · rename_i h1; rw [h1] at h; exact h
  · rename_i h1; rw [h1] at h; exact h

theorem solve_base (r : Option P) : (s.solve E r).1.base = s.base := by
  unfold St.solve
  have h : s.initProblem.1.base = s.base := initProblem_base
  split
  · rename_i h1; rw [h1] at h; exact h
  · rename_i h1; rw [h1] at h
    split
    · simp only
      split
      · exact h
      · split
        · rename_i h2; rw [← show _ = _ from congrArg (fun x => x.1.base) h2, optimizePath_base]; exact h
        · rename_i h2; rw [← show _ = _ from congrArg (fun x => x.1.base) h2, optimizePath_base]; exact h
    · exact h

theorem prepare_base (b : Bool) : (s.prepare b).1.base = s.base := by
  unfold St.prepare
  have h : s.initProblem.1.base = s.base := initProblem_base
  split
  · rename_i h1; rw [h1] at h; exact h
  · rename_i h1; rw [h1] at h
    split
    · exact h
    · exact h


/-- The constraints of the solver. -/
def St.cur (s : St Q P C K) : Option (CSet C K) := s.cset.bind (s.sets[·]?)

structure Valid (s : St Q P C K) : Prop where
  set : ∀ c, s.cset = some c → c < s.sets.length
  robot : s.robot = s.cset.isSome

theorem start_valid (a b c : K) : Valid (St.start a b c : St Q P C K) := ⟨fun _ h => (by cases h), rfl⟩

theorem base_valid {s' : St Q P C K} (hv : Valid s) (h : s'.base = s.base) : Valid s' ∧ s'.cur = s.cur := by
  simp only [St.base, Prod.mk.injEq] at h
  obtain ⟨h1, h2, h3, -⟩ := h
  refine ⟨⟨?_, ?_⟩, ?_⟩
  · rw [h2, h3]; exact hv.set
  · rw [h1, h2]; exact hv.robot
  · unfold St.cur; rw [h2, h3]

/-- `resetProblem` makes a constraint set for the new problem and forgets it. -/
theorem resetProblem_base : s.resetProblem.1.base = s.base ∨ s.resetProblem.1.base = (s.robot, s.cset, s.sets ++ [⟨[], none⟩], s.target.asTask) := by
  unfold St.resetProblem
  split
  · simp only
    right
    split
    · rename_i h; rw [← show _ = _ from congrArg (fun x => x.1.base) h, resetRoadmap_base]; rfl
    · rename_i s2 h
      have h2 : s2.base = (s.robot, s.cset, s.sets ++ [⟨[], none⟩], s.target.asTask) := by rw [← show _ = _ from congrArg (fun x => x.1.base) h, resetRoadmap_base]; rfl
      split
      · rename_i h; rw [← show _ = _ from congrArg (fun x => x.1.base) h, initPathValidation_base]; exact h2
      · rename_i h; rw [initConfigValidation_base, ← show _ = _ from congrArg (fun x => x.1.base) h, initPathValidation_base]; exact h2
  · exact Or.inl rfl

theorem resetProblem_task : s.resetProblem.1.target.asTask = s.target.asTask := by
  rcases resetProblem_base (s := s) with h | h <;> exact congrArg (fun x => x.2.2.2) h

theorem resetProblem_valid (hv : Valid s) : Valid s.resetProblem.1 ∧ s.resetProblem.1.cur = s.cur := by
  rcases resetProblem_base (s := s) with h | h
  · exact base_valid hv h
  · simp only [St.base, Prod.mk.injEq] at h
    obtain ⟨h1, h2, h3, -⟩ := h
    refine ⟨⟨?_, ?_⟩, ?_⟩
    · rw [h2, h3]; intro c hc; have := hv.set c hc; simp only [List.length_append]; omega
    · rw [h1, h2]; exact hv.robot
    · unfold St.cur
      rw [h2, h3]
      cases hc : s.cset with
      | none => rfl
      | some c => simp only [Option.bind_some]; rw [List.getElem?_append_left (hv.set c hc)]

/-- The constraint set with a config projector. -/
def CSet.ensure (e : K) (n : Nat) (c : CSet C K) : CSet C K := match c.proj with
  | some _ => c
  | none => { c with proj := some (e, n, []) }

def curStep (s : St Q P C K) : Op Q P C K → Option (CSet C K)
  | .robot => some ⟨[], none⟩
  | .resetConstraints => s.cur.map fun _ => ⟨[], none⟩
  | .addConstraint c => match s.cur.bind (·.add c) with
    | some x => some x
    | none => s.cur
  | .addToProjector n => s.cur.map fun c =>
    if s.numerical.contains n = true then CSet.mapProj (fun x => (x.1, x.2.1, x.2.2 ++ [n])) (c.ensure s.errThr s.maxIterProj) else c.ensure s.errThr s.maxIterProj
  | .maxIterProjection n => s.cur.map (CSet.mapProj (fun x => (x.1, n, x.2.2)))
  | .errorThreshold e => s.cur.map (CSet.mapProj (fun x => (e, x.2.1, x.2.2)))
  | _ => s.cur

theorem step_cur (hv : Valid s) (o : Op Q P C K) : Valid (step E s o).1 ∧ (step E s o).1.cur = curStep s o := by
  cases o with
  | robot =>
    have hv' : Valid ({ s with robot := true, cset := some s.sets.length, sets := s.sets ++ [⟨[], none⟩] } : St Q P C K) :=
      ⟨fun c hc => (by cases hc; simp), rfl⟩
    have h := resetProblem_valid hv'
    refine ⟨h.1, ?_⟩
    rw [show (step E s .robot).1.cur = _ from h.2]
    simp [St.cur, curStep]
  | resetProblem => exact resetProblem_valid hv
  | setGoalConstraints l => simp only [step]; split <;> exact ⟨hv.1 |> fun h => ⟨h, hv.2⟩, rfl⟩
  | plannerType n => simp only [step]; split <;> exact ⟨⟨hv.1, hv.2⟩, rfl⟩
  | distanceType n => simp only [step]; split <;> exact ⟨⟨hv.1, hv.2⟩, rfl⟩
  | steeringMethodType n =>
    simp only [step]
    split
    · split
      · exact ⟨⟨hv.1, hv.2⟩, rfl⟩
      · exact base_valid hv initSteeringMethod_base
    · exact ⟨hv, rfl⟩
  | shooterType n => simp only [step]; split <;> exact ⟨⟨hv.1, hv.2⟩, rfl⟩
  | addPathOptimizer n => simp only [step]; split <;> exact ⟨⟨hv.1, hv.2⟩, rfl⟩
  | pathValidationType n t =>
    simp only [step]
    split
    · split
      · exact base_valid hv initPathValidation_base
      · exact ⟨⟨hv.1, hv.2⟩, rfl⟩
    · exact ⟨hv, rfl⟩
  | pathProjectorType n t =>
    simp only [step]
    split
    · split
      · exact base_valid hv initPathProjector_base
      · exact ⟨⟨hv.1, hv.2⟩, rfl⟩
    · exact ⟨hv, rfl⟩
  | addConfigValidation n =>
    simp only [step]
    split
    · split
      · exact ⟨⟨hv.1, hv.2⟩, rfl⟩
      · exact base_valid hv initConfigValidation_base
    · exact ⟨hv, rfl⟩
  | clearConfigValidations => simp only [step]; split <;> exact ⟨⟨hv.1, hv.2⟩, rfl⟩
  | addConstraint c =>
    simp only [step, curStep]
    split
    · rename_i i hr hc
      have hcur : s.cur = s.sets[i]? := by unfold St.cur; rw [hc]; rfl
      rw [hcur]
      split
      · rename_i h0; simp only [h0]; exact ⟨hv, hcur⟩
      · rename_i x h0
        simp only [h0]
        refine ⟨⟨fun c' hc' => ?_, hv.2⟩, ?_⟩
        · simp only [List.length_set]; exact hv.set c' hc'
        · simp only [St.cur, hc, Option.bind_some]; rw [List.getElem?_set_self (hv.set i hc)]
    · rename_i hr hc
      have hcur : s.cur = none := by unfold St.cur; rw [hc]; rfl
      simp only [hcur, Option.bind_none]; exact ⟨hv, trivial⟩
    · rename_i hr
      have hc : s.cset = none := by have := hv.robot; rw [hr] at this; cases hc : s.cset with
        | none => rfl
        | some c => rw [hc] at this; cases this
      have hcur : s.cur = none := by unfold St.cur; rw [hc]; rfl
      simp only [hcur, Option.bind_none]; exact ⟨hv, trivial⟩
  | resetConstraints =>
    simp only [step, curStep]
    split
    · rename_i hr
      refine ⟨⟨fun c hc => (by cases hc; simp), hr⟩, ?_⟩
      have h0 := hv.robot
      rw [hr] at h0
      obtain ⟨c, hc⟩ := Option.isSome_iff_exists.mp h0.symm
      have hl := hv.set c hc
      have : s.cur = some s.sets[c] := by unfold St.cur; rw [hc]; exact List.getElem?_eq_getElem (hv.set c hc)
      rw [this]
      simp [St.cur]
    · rename_i hr
      have h0 := hv.robot
      simp only [Bool.not_eq_true] at hr
      rw [hr] at h0
      have hc : s.cset = none := by cases hc : s.cset with
        | none => rfl
        | some c => rw [hc] at h0; cases h0
      have : s.cur = none := by unfold St.cur; rw [hc]; rfl
      rw [this]; exact ⟨hv, rfl⟩
  | addToProjector n =>
    simp only [step, St.addToProjector, curStep]
    split
    · rename_i hc
      have : s.cur = none := by unfold St.cur; rw [hc]; rfl
      rw [this]; exact ⟨hv, rfl⟩
    · rename_i c hc
      have hcur : s.cur = s.sets[c]? := by unfold St.cur; rw [hc]; rfl
      have hl := hv.set c hc
      split
      · rename_i hn
        refine ⟨⟨fun c' hc' => ?_, hv.2⟩, ?_⟩
        · simp only [List.length_modify]; exact hv.set c' hc'
        · simp only [St.cur, hc, Option.bind_some, List.getElem?_modify_eq, List.getElem?_eq_getElem hl, Option.map_some]; rfl
      · rename_i hn
        refine ⟨⟨fun c' hc' => ?_, hv.2⟩, ?_⟩
        · simp only [List.length_modify]; exact hv.set c' hc'
        · simp only [St.cur, hc, Option.bind_some, List.getElem?_modify_eq, List.getElem?_eq_getElem hl, Option.map_some]; rfl
  | maxIterProjection n =>
    simp only [step, curStep]
    cases hc : s.cset with
    | none =>
      have : s.cur = none := by unfold St.cur; rw [hc]; rfl
      rw [this]; exact ⟨⟨fun c h => (by cases h), by rw [← hc]; exact hv.2⟩, rfl⟩
    | some c =>
      refine ⟨⟨fun c' hc' => ?_, by rw [← hc]; exact hv.2⟩, ?_⟩
      · simp only [List.length_modify]; exact hv.set c' (hc.trans hc')
      · simp only [St.cur, hc, Option.bind_some, List.getElem?_modify_eq]; rfl
  | errorThreshold n =>
    simp only [step, curStep]
    cases hc : s.cset with
    | none =>
      have : s.cur = none := by unfold St.cur; rw [hc]; rfl
      rw [this]; exact ⟨⟨fun c h => (by cases h), by rw [← hc]; exact hv.2⟩, rfl⟩
    | some c =>
      refine ⟨⟨fun c' hc' => ?_, by rw [← hc]; exact hv.2⟩, ?_⟩
      · simp only [List.length_modify]; exact hv.set c' (hc.trans hc')
      · simp only [St.cur, hc, Option.bind_some, List.getElem?_modify_eq]; rfl
  | resetRoadmap => exact base_valid hv resetRoadmap_base
  | initDistance => exact base_valid hv initDistance_base
  | solve r => exact base_valid hv (solve_base r)
  | prepare b => exact base_valid hv (prepare_base b)
  | oneStep b =>
    simp only [step, St.oneStep]
    split
    · exact ⟨hv, rfl⟩
    · split <;> exact ⟨⟨hv.1, hv.2⟩, rfl⟩
  | finish p =>
    simp only [step, St.finish]
    split
    · exact ⟨hv, rfl⟩
    · split
      · exact ⟨hv, rfl⟩
      · split <;> exact ⟨⟨hv.1, hv.2⟩, rfl⟩
    · exact ⟨hv, rfl⟩
  | directPath a b v =>
    simp only [step, St.directPath]
    split
    · exact ⟨hv, rfl⟩
    · split
      · exact ⟨hv, rfl⟩
      · split
        · exact ⟨hv, rfl⟩
        · split
          · split <;> exact ⟨⟨hv.1, hv.2⟩, rfl⟩
          · exact ⟨⟨hv.1, hv.2⟩, rfl⟩
  | erasePath i => simp only [step]; split <;> exact ⟨⟨hv.1, hv.2⟩, rfl⟩
  | pbAddGoal q => simp only [step]; split <;> exact ⟨⟨hv.1, hv.2⟩, rfl⟩
  | pbSteeringMethod n => simp only [step]; split <;> exact ⟨⟨hv.1, hv.2⟩, rfl⟩
  | pbShooter n => simp only [step]; split <;> exact ⟨⟨hv.1, hv.2⟩, rfl⟩
  | _ => exact ⟨⟨hv.1, hv.2⟩, rfl⟩

theorem step_task (o : Op Q P C K) : (step E s o).1.target.asTask = match o with
    | .setGoalConstraints l => if s.problem.isSome = true then some (s.errThr, s.maxIterProj, l) else s.target.asTask
    | .resetGoalConstraints => none
    | _ => s.target.asTask := by
  have hb : ∀ {s' : St Q P C K}, s'.base = s.base → s'.target.asTask = s.target.asTask := fun h => congrArg (fun x => x.2.2.2) h
  cases o with
  | robot => exact resetProblem_task
  | resetProblem => exact resetProblem_task
  | setGoalConstraints l => simp only [step]; cases h : s.problem <;> rfl
  | plannerType n => simp only [step]; split <;> rfl
  | distanceType n => simp only [step]; split <;> rfl
  | steeringMethodType n =>
    simp only [step]
    split
    · split
      · rfl
      · exact hb initSteeringMethod_base
    · rfl
  | shooterType n => simp only [step]; split <;> rfl
  | addPathOptimizer n => simp only [step]; split <;> rfl
  | pathValidationType n t =>
    simp only [step]
    split
    · split
      · exact hb initPathValidation_base
      · rfl
    · rfl
  | pathProjectorType n t =>
    simp only [step]
    split
    · split
      · exact hb initPathProjector_base
      · rfl
    · rfl
  | addConfigValidation n =>
    simp only [step]
    split
    · split
      · rfl
      · exact hb initConfigValidation_base
    · rfl
  | clearConfigValidations => simp only [step]; split <;> rfl
  | addConstraint c =>
    simp only [step]
    split
    · split <;> rfl
    · rfl
    · rfl
  | resetConstraints => simp only [step]; split <;> rfl
  | addToProjector n =>
    simp only [step, St.addToProjector]
    split
    · rfl
    · split <;> rfl
  | resetRoadmap => exact hb resetRoadmap_base
  | initDistance => exact hb initDistance_base
  | solve r => exact hb (solve_base r)
  | prepare b => exact hb (prepare_base b)
  | oneStep b =>
    simp only [step, St.oneStep]
    split
    · rfl
    · split <;> rfl
  | finish p =>
    simp only [step, St.finish]
    split
    · rfl
    · split
      · rfl
      · split <;> rfl
    · rfl
  | directPath a b v =>
    simp only [step, St.directPath]
    split
    · rfl
    · split
      · rfl
      · split
        · rfl
        · split
          · split <;> rfl
          · rfl
  | erasePath i => simp only [step]; split <;> rfl
  | pbAddGoal q => simp only [step]; split <;> rfl
  | pbSteeringMethod n => simp only [step]; split <;> rfl
  | pbShooter n => simp only [step]; split <;> rfl
  | _ => rfl

end Verif.Session
