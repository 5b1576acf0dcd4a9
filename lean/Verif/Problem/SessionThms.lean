import Verif.Problem.SessionSets
set_option linter.unusedSectionVars false
set_option linter.unusedVariables false

/-! # Sessions with `ProblemSolver`: what the problem and the planner are made of (C97-C99) -/
namespace Verif.Session
variable {Q P C K : Type} {E : Env Q P C K} {s : St Q P C K}

/-! ## History of the settings -/

theorem lastOk_run {α : Type} (f : Op Q P C K → Option α) (get : Sel Q K → α) (h1 : ∀ x o, f o = none → get (selStep x o) = get x)
    (h2 : ∀ (s : St Q P C K) o a, f o = some a →
      (∃ r, (step E s o).2 = .ok r ∧ get (selStep s.sel o) = a) ∨ (∃ e, (step E s o).2 = .error e ∧ get (selStep s.sel o) = get s.sel)) :
    ∀ (l : List (Op Q P C K)) (s : St Q P C K), get (run E s l).1.sel = lastOk f (get s.sel) (run E s l).2 := by
  intro l
  induction l with
  | nil => intro s; rfl
  | cons o l ih =>
    intro s
    simp only [run]
    rw [ih, step_sel]
    cases hf : f o with
    | none =>
      rw [h1 _ _ hf]
      cases hr : (step E s o).2 with
      | ok r => simp only [lastOk, hf, Option.getD_none]
      | error e => simp only [lastOk]
    | some a =>
      rcases h2 s o a hf with ⟨r, hr, ha⟩ | ⟨e, hr, ha⟩
      · rw [hr, ha]; simp only [lastOk, hf, Option.getD_some]
      · rw [hr, ha]; simp only [lastOk]

theorem run_planner (l : List (Op Q P C K)) : (run E s l).1.plannerType = lastOk selPlanner s.plannerType (run E s l).2 := by
  refine lastOk_run selPlanner Sel.plannerType ?_ ?_ l s
  · intro x o h; cases o <;> first | rfl | (cases h; done) | (simp only [selStep]; split <;> rfl)
  · intro s o a h
    cases o <;> try cases h
    simp only [step, selStep]
    by_cases hc : s.has .planner a = true
    · rw [if_pos hc, if_pos (show s.sel.has .planner a = true from hc)]; exact Or.inl ⟨_, rfl, rfl⟩
    · rw [if_neg hc, if_neg (show ¬ s.sel.has .planner a = true from hc)]; exact Or.inr ⟨_, rfl, rfl⟩

theorem run_shooter (l : List (Op Q P C K)) : (run E s l).1.shooterType = lastOk selShooter s.shooterType (run E s l).2 := by
  refine lastOk_run selShooter Sel.shooterType ?_ ?_ l s
  · intro x o h; cases o <;> first | rfl | (cases h; done) | (simp only [selStep]; split <;> rfl)
  · intro s o a h
    cases o <;> try cases h
    simp only [step, selStep]
    by_cases hc : s.has .shooter a = true
    · rw [if_pos hc, if_pos (show s.sel.has .shooter a = true from hc)]; exact Or.inl ⟨_, rfl, rfl⟩
    · rw [if_neg hc, if_neg (show ¬ s.sel.has .shooter a = true from hc)]; exact Or.inr ⟨_, rfl, rfl⟩

theorem run_distance (l : List (Op Q P C K)) : (run E s l).1.distType = lastOk selDistance s.distType (run E s l).2 := by
  refine lastOk_run selDistance Sel.distType ?_ ?_ l s
  · intro x o h; cases o <;> first | rfl | (cases h; done) | (simp only [selStep]; split <;> rfl)
  · intro s o a h
    cases o <;> try cases h
    simp only [step, selStep]
    by_cases hc : s.has .distance a = true
    · rw [if_pos hc, if_pos (show s.sel.has .distance a = true from hc)]; exact Or.inl ⟨_, rfl, rfl⟩
    · rw [if_neg hc, if_neg (show ¬ s.sel.has .distance a = true from hc)]; exact Or.inr ⟨_, rfl, rfl⟩

theorem run_steering (l : List (Op Q P C K)) : (run E s l).1.smType = lastOk selSteer s.smType (run E s l).2 := by
  refine lastOk_run selSteer Sel.smType ?_ ?_ l s
  · intro x o h; cases o <;> first | rfl | (cases h; done) | (simp only [selStep]; split <;> rfl)
  · intro s o a h
    cases o <;> try cases h
    by_cases hc : s.has .steering a = true
    · left
      simp only [selStep]
      rw [if_pos (show s.sel.has .steering a = true from hc)]
      cases hp : s.problem with
      | none => simp only [step]; rw [if_pos hc, hp]; exact ⟨_, rfl, trivial⟩
      | some x => rw [step_steering E hc hp]; exact ⟨_, rfl, rfl⟩
    · simp only [step, selStep]; rw [if_neg hc, if_neg (show ¬ s.sel.has .steering a = true from hc)]; exact Or.inr ⟨_, rfl, rfl⟩

theorem run_validation (l : List (Op Q P C K)) : ((run E s l).1.pvType, (run E s l).1.pvTol) = lastOk selValidation (s.pvType, s.pvTol) (run E s l).2 := by
  refine lastOk_run selValidation (fun x => (x.pvType, x.pvTol)) ?_ ?_ l s
  · intro x o h; cases o <;> first | rfl | (cases h; done) | (simp only [selStep]; split <;> rfl)
  · intro s o a h
    cases o <;> try cases h
    rename_i n t
    by_cases hc : s.has .pathValidation n = true
    · left
      simp only [selStep]
      rw [if_pos (show s.sel.has .pathValidation n = true from hc)]
      simp only [step]; rw [if_pos hc]
      by_cases hr : s.robot = true ∧ s.problem.isSome = true
      · obtain ⟨⟨i, p⟩, hp⟩ := Option.isSome_iff_exists.mp hr.2
        have := step_pathValidation E (t := t) hc hr.1 hp
        simp only [step] at this
        rw [if_pos hc] at this
        rw [this]; exact ⟨_, rfl, trivial⟩
      · rw [if_neg hr]; exact ⟨_, rfl, trivial⟩
    · simp only [step, selStep]; rw [if_neg hc, if_neg (show ¬ s.sel.has .pathValidation n = true from hc)]; exact Or.inr ⟨_, rfl, rfl⟩

theorem run_projector (l : List (Op Q P C K)) : ((run E s l).1.projType, (run E s l).1.projTol) = lastOk selProjector (s.projType, s.projTol) (run E s l).2 := by
  refine lastOk_run selProjector (fun x => (x.projType, x.projTol)) ?_ ?_ l s
  · intro x o h; cases o <;> first | rfl | (cases h; done) | (simp only [selStep]; split <;> rfl)
  · intro s o a h
    cases o <;> try cases h
    rename_i n t
    by_cases hc : s.has .projector n = true
    · left
      simp only [selStep]
      rw [if_pos (show s.sel.has .projector n = true from hc)]
      simp only [step]; rw [if_pos hc]
      by_cases hr : s.robot = true ∧ s.problem.isSome = true
      · obtain ⟨⟨i, p⟩, hp⟩ := Option.isSome_iff_exists.mp hr.2
        have := step_pathProjector E (t := t) hc hr.1 hp
        simp only [step] at this
        rw [if_pos hc] at this
        rw [this]; exact ⟨_, rfl, trivial⟩
      · rw [if_neg hr]; exact ⟨_, rfl, trivial⟩
    · simp only [step, selStep]; rw [if_neg hc, if_neg (show ¬ s.sel.has .projector n = true from hc)]; exact Or.inr ⟨_, rfl, rfl⟩

theorem run_maxIter (l : List (Op Q P C K)) : (run E s l).1.maxIter = lastOk selMaxIter s.maxIter (run E s l).2 := by
  refine lastOk_run selMaxIter Sel.maxIter ?_ ?_ l s
  · intro x o h; cases o <;> first | rfl | (cases h; done) | (simp only [selStep]; split <;> rfl)
  · intro s o a h; cases o <;> try cases h
    exact Or.inl ⟨_, rfl, rfl⟩

theorem run_timeOut (l : List (Op Q P C K)) : (run E s l).1.timeOut = lastOk selTimeOut s.timeOut (run E s l).2 := by
  refine lastOk_run selTimeOut Sel.timeOut ?_ ?_ l s
  · intro x o h; cases o <;> first | rfl | (cases h; done) | (simp only [selStep]; split <;> rfl)
  · intro s o a h; cases o <;> try cases h
    exact Or.inl ⟨_, rfl, rfl⟩

theorem run_init (l : List (Op Q P C K)) : (run E s l).1.init = lastOk selInit s.init (run E s l).2 := by
  refine lastOk_run selInit Sel.init ?_ ?_ l s
  · intro x o h; cases o <;> first | rfl | (cases h; done) | (simp only [selStep]; split <;> rfl)
  · intro s o a h; cases o <;> try cases h
    exact Or.inl ⟨_, rfl, rfl⟩

theorem run_goals (l : List (Op Q P C K)) : (run E s l).1.goals = goalsOf s.goals (run E s l).2 := by
  induction l generalizing s with
  | nil => rfl
  | cons o l ih =>
    simp only [run]
    rw [ih]
    have h := congrArg Sel.goals (step_sel (E := E) (s := s) o)
    rw [show (step E s o).1.goals = (selStep s.sel o).goals from h]
    cases o <;> first | rfl | (simp only [selStep, goalsOf]; split <;> rfl)

theorem run_opts (l : List (Op Q P C K)) : (run E s l).1.optTypes = optsOf s.optTypes (run E s l).2 := by
  induction l generalizing s with
  | nil => rfl
  | cons o l ih =>
    simp only [run]
    rw [ih]
    have h := congrArg Sel.optTypes (step_sel (E := E) (s := s) o)
    rw [show (step E s o).1.optTypes = (selStep s.sel o).optTypes from h]
    cases o with
    | addPathOptimizer n =>
      simp only [selStep, step]
      by_cases hc : s.has .optimizer n = true
      · rw [if_pos hc, if_pos (show s.sel.has .optimizer n = true from hc)]; rfl
      · rw [if_neg hc, if_neg (show ¬ s.sel.has .optimizer n = true from hc)]; rfl
    | _ => first | rfl | (simp only [selStep, optsOf]; split <;> rfl)

theorem run_task (l : List (Op Q P C K)) : (run E s l).1.target.asTask = taskOf s.errThr s.maxIterProj s.target.asTask (run E s l).2 := by
  induction l generalizing s with
  | nil => rfl
  | cons o l ih =>
    simp only [run]
    rw [ih, step_task]
    have h1 := congrArg Sel.errThr (step_sel (E := E) (s := s) o)
    have h2 := congrArg Sel.maxIterProj (step_sel (E := E) (s := s) o)
    rw [show (step E s o).1.errThr = (selStep s.sel o).errThr from h1, show (step E s o).1.maxIterProj = (selStep s.sel o).maxIterProj from h2]
    cases o with
    | setGoalConstraints g =>
      simp only [selStep, step]
      cases hp : s.problem with
      | none => rfl
      | some x => rfl
    | _ => first | rfl | (simp only [selStep, taskOf]; split <;> rfl)

/-! ## Sessions in which a robot was given -/

theorem run_names (h : Names s.sel) (l : List (Op Q P C K)) : Names (run E s l).1.sel := by
  induction l generalizing s with
  | nil => exact h
  | cons o l ih => exact ih (by rw [step_sel]; exact selStep_names h o)

theorem run_inv (h : Inv s) (l : List (Op Q P C K)) : Inv (run E s l).1 := by
  induction l generalizing s with
  | nil => exact h
  | cons o l ih => exact ih (step_inv h o)

theorem run_robot (h : Names s.sel) (l : List (Op Q P C K)) (hr : Op.robot ∈ l) : Inv (run E s l).1 := by
  induction l generalizing s with
  | nil => cases hr
  | cons o l ih =>
    rcases List.mem_cons.mp hr with rfl | hr
    · refine run_inv ?_ l
      exact resetProblem_inv (s := { s with robot := true, cset := some s.sets.length, sets := s.sets ++ [⟨[], none⟩] }) h rfl rfl (by simp)
    · exact ih (by rw [step_sel]; exact selStep_names h o) hr

theorem run_valid (h : Valid s) (l : List (Op Q P C K)) : Valid (run E s l).1 := by
  induction l generalizing s with
  | nil => exact h
  | cons o l ih => exact ih (step_cur h o).1

/-! ## C97: components -/

/-- What a problem and a planner are made of. -/
structure Made (s : St Q P C K) (n m pl : String) (proj val : String × K) (maxIter : Nat) (timeOut : Option K) (init : Option Q) (cvs : List String) : Prop where
  made : ∃ i p x, s.problem = some (i, p) ∧ s.planner = some x ∧ p.shooter = n ∧ p.sm.name = m ∧ x.name = pl ∧ x.maxIter = maxIter ∧ x.timeOut = timeOut ∧ x.prob = i ∧
    s.roadmap = some x.road ∧ p.init = init ∧ p.pv = val ∧ p.cvs = cvs ∧
    (p.proj.map fun f => (f.name, f.tol, f.steer)) = if proj.1 = "None" then none else some (proj.1, proj.2, m)

theorem initProblem_made (h : Inv s) :
    Made s.initProblem.1 s.shooterType s.smType s.plannerType (s.projType, s.projTol) (s.pvType, s.pvTol) s.maxIter s.timeOut s.init s.cvTypes := by
  obtain ⟨i, p, hg⟩ := h.good
  obtain ⟨r, hr, hl⟩ := h.road
  have hproj : ((ready s p).proj.map fun f => (f.name, f.tol, f.steer)) = if s.projType = "None" then none else some (s.projType, s.projTol, s.smType) := by
    simp only [ready, buildProjector]
    split <;> rfl
  rw [initProblem_eq h hg.problem hr]
  split
  · exact ⟨i, _, _, rfl, rfl, rfl, rfl, rfl, rfl, rfl, rfl, hr, rfl, hg.pv, hg.cvs, hproj⟩
  · exact ⟨i, _, _, rfl, rfl, rfl, rfl, rfl, rfl, rfl, rfl, hr, rfl, hg.pv, hg.cvs, hproj⟩

theorem optimizePath_keep (p : P) : (s.optimizePath E p).1.problem = s.problem ∧ (s.optimizePath E p).1.planner = s.planner ∧ (s.optimizePath E p).1.roadmap = s.roadmap := by
  unfold St.optimizePath
  have h : s.createPathOptimizers.1.problem = s.problem ∧ s.createPathOptimizers.1.planner = s.planner ∧ s.createPathOptimizers.1.roadmap = s.roadmap := by
    unfold St.createPathOptimizers; split <;> exact ⟨rfl, rfl, rfl⟩
  split
  · rename_i h1; rw [h1] at h; exact h
  · rename_i h1; rw [h1] at h; exact h

theorem prepare_keep (b : Bool) :
    (s.prepare b).1.problem = s.initProblem.1.problem ∧ (s.prepare b).1.planner = s.initProblem.1.planner ∧ (s.prepare b).1.roadmap = s.initProblem.1.roadmap := by
  unfold St.prepare
  split
  · rename_i h; rw [h]; exact ⟨rfl, rfl, rfl⟩
  · rename_i h; rw [h]; split <;> exact ⟨rfl, rfl, rfl⟩

theorem solve_keep (r : Option P) :
    (s.solve E r).1.problem = s.initProblem.1.problem ∧ (s.solve E r).1.planner = s.initProblem.1.planner ∧ (s.solve E r).1.roadmap = s.initProblem.1.roadmap := by
  unfold St.solve
  split
  · rename_i h; rw [h]; exact ⟨rfl, rfl, rfl⟩
  · rename_i h; rw [h]
    split
    · simp only
      split
      · exact ⟨rfl, rfl, rfl⟩
      · rename_i path
        split
        · rename_i h2; rw [← show _ = _ from congrArg (fun x => x.1) h2]; exact optimizePath_keep (E := E) path
        · rename_i h2; rw [← show _ = _ from congrArg (fun x => x.1) h2]; exact optimizePath_keep (E := E) path
    · exact ⟨rfl, rfl, rfl⟩

/-- C97: whatever calls were made since the solver was created, provided a robot was given, `solve` and `prepareSolveStepByStep` work on a problem and a planner made of the
components of the last accepted names (default names otherwise), even if they end with an exception; components that were set on the problem itself do not remain. -/
theorem C97_components (a b c : K) (l : List (Op Q P C K)) (hr : Op.robot ∈ l) (o : Op Q P C K) (ho : (∃ f, o = .prepare f) ∨ ∃ r, o = .solve r) :
    Made (step E (run E (St.start a b c) l).1 o).1 (lastOk selShooter "Uniform" (run E (St.start a b c) l).2) (lastOk selSteer "Straight" (run E (St.start a b c) l).2)
      (lastOk selPlanner "DiffusingPlanner" (run E (St.start a b c) l).2) (lastOk selProjector ("None", a) (run E (St.start a b c) l).2)
      (lastOk selValidation ("Discretized", b) (run E (St.start a b c) l).2) (lastOk selMaxIter 18446744073709551615 (run E (St.start a b c) l).2)
      (lastOk selTimeOut none (run E (St.start a b c) l).2) (lastOk selInit none (run E (St.start a b c) l).2) (run E (St.start a b c) l).1.cvTypes := by
  have hi := run_robot (E := E) (start_names a b c) l hr
  have hm := initProblem_made hi
  rw [run_shooter, run_steering, run_planner, run_maxIter, run_timeOut, run_init, run_projector, run_validation] at hm
  obtain ⟨i, p, x, h1, h2, hrest⟩ := hm
  rcases ho with ⟨f, rfl⟩ | ⟨r, rfl⟩
  · obtain ⟨k1, k2, k3⟩ := prepare_keep (s := (run E (St.start a b c) l).1) f
    exact ⟨i, p, x, k1.trans h1, k2.trans h2, by rw [show (step E (run E (St.start a b c) l).1 (.prepare f)).1.roadmap = _ from k3]; exact hrest⟩
  · obtain ⟨k1, k2, k3⟩ := solve_keep (E := E) (s := (run E (St.start a b c) l).1) r
    exact ⟨i, p, x, k1.trans h1, k2.trans h2, by rw [show (step E (run E (St.start a b c) l).1 (.solve r)).1.roadmap = _ from k3]; exact hrest⟩

/-- C97: the validations of the problem are, after every call, the selected ones. -/
theorem C97_validations (a b c : K) (l : List (Op Q P C K)) (hr : Op.robot ∈ l) :
    ∃ i p, (run E (St.start a b c) l).1.problem = some (i, p) ∧ p.pv = lastOk selValidation ("Discretized", b) (run E (St.start a b c) l).2 ∧
      p.cvs = (run E (St.start a b c) l).1.cvTypes := by
  obtain ⟨i, p, hg⟩ := (run_robot (E := E) (start_names a b c) l hr).good
  have := run_validation (E := E) (s := St.start a b c) l
  exact ⟨i, p, hg.problem, hg.pv.trans this, hg.cvs⟩

/-- C97: a name is accepted if and only if a builder was registered under this name; a name that is refused changes nothing. -/
theorem C97_names (n : String) :
    ((step E s (.plannerType n)).2 = .ok .unit ↔ n ∈ s.reg .planner) ∧ (n ∉ s.reg .planner → step E s (.plannerType n) = (s, .error .runtime)) ∧
    ((step E s (.shooterType n)).2 = .ok .unit ↔ n ∈ s.reg .shooter) ∧ (n ∉ s.reg .shooter → step E s (.shooterType n) = (s, .error .runtime)) ∧
    ((step E s (.steeringMethodType n)).2 = .ok .unit ↔ n ∈ s.reg .steering) ∧ (n ∉ s.reg .steering → step E s (.steeringMethodType n) = (s, .error .runtime)) ∧
    ((step E s (.distanceType n)).2 = .ok .unit ↔ n ∈ s.reg .distance) ∧ (n ∉ s.reg .distance → step E s (.distanceType n) = (s, .error .runtime)) ∧
    ((step E s (.addPathOptimizer n)).2 = .ok .unit ↔ n ∈ s.reg .optimizer) ∧ (n ∉ s.reg .optimizer → step E s (.addPathOptimizer n) = (s, .error .runtime)) ∧
    ∀ t : K, ((step E s (.pathValidationType n t)).2 = .ok .unit ↔ n ∈ s.reg .pathValidation) ∧
      (n ∉ s.reg .pathValidation → step E s (.pathValidationType n t) = (s, .error .runtime)) ∧
      ((step E s (.pathProjectorType n t)).2 = .ok .unit ↔ n ∈ s.reg .projector) ∧ (n ∉ s.reg .projector → step E s (.pathProjectorType n t) = (s, .error .runtime)) := by
  have key : ∀ k, (s.has k n = true ↔ n ∈ s.reg k) := fun k => by simp only [St.has, List.contains_iff_mem]
  have gen : ∀ (k : Kind) (o : Op Q P C K), (s.has k n = true → (step E s o).2 = .ok .unit) → (¬ s.has k n = true → step E s o = (s, .error .runtime)) →
      ((step E s o).2 = .ok .unit ↔ n ∈ s.reg k) ∧ (n ∉ s.reg k → step E s o = (s, .error .runtime)) := by
    intro k o h1 h2
    refine ⟨⟨fun h => ?_, fun h => h1 ((key k).mpr h)⟩, fun h => h2 (fun h' => h ((key k).mp h'))⟩
    by_cases hk : s.has k n = true
    · exact (key k).mp hk
    · rw [h2 hk] at h; cases h
  have neg : ∀ {k : Kind} {α : Type} {x y : α}, ¬ s.has k n = true → (if s.has k n = true then x else y) = y := fun h => if_neg h
  obtain ⟨a1, a2⟩ := gen .planner (.plannerType n) (fun h => by simp only [step]; rw [if_pos h]) (fun h => by simp only [step]; rw [if_neg h])
  obtain ⟨b1, b2⟩ := gen .shooter (.shooterType n) (fun h => by simp only [step]; rw [if_pos h]) (fun h => by simp only [step]; rw [if_neg h])
  obtain ⟨c1, c2⟩ := gen .steering (.steeringMethodType n) (fun h => by
    cases hp : s.problem with
    | none => simp only [step]; rw [if_pos h, hp]
    | some x => rw [step_steering E h hp]) (fun h => by simp only [step]; rw [if_neg h])
  obtain ⟨d1, d2⟩ := gen .distance (.distanceType n) (fun h => by simp only [step]; rw [if_pos h]) (fun h => by simp only [step]; rw [if_neg h])
  obtain ⟨e1, e2⟩ := gen .optimizer (.addPathOptimizer n) (fun h => by simp only [step]; rw [if_pos h]) (fun h => by simp only [step]; rw [if_neg h])
  refine ⟨a1, a2, b1, b2, c1, c2, d1, d2, e1, e2, fun t => ?_⟩
  obtain ⟨f1, f2⟩ := gen .pathValidation (.pathValidationType n t) (fun h => by
    by_cases hr : s.robot = true ∧ s.problem.isSome = true
    · obtain ⟨⟨i, p⟩, hp⟩ := Option.isSome_iff_exists.mp hr.2
      rw [step_pathValidation E h hr.1 hp]
    · simp only [step]; rw [if_pos h, if_neg hr]) (fun h => by simp only [step]; rw [if_neg h])
  obtain ⟨g1, g2⟩ := gen .projector (.pathProjectorType n t) (fun h => by
    by_cases hr : s.robot = true ∧ s.problem.isSome = true
    · obtain ⟨⟨i, p⟩, hp⟩ := Option.isSome_iff_exists.mp hr.2
      rw [step_pathProjector E h hr.1 hp]
    · simp only [step]; rw [if_pos h, if_neg hr]) (fun h => by simp only [step]; rw [if_neg h])
  exact ⟨f1, f2, g1, g2⟩

/-! ## C98: goals -/

theorem prepare_eq (h : Inv s) (f : Bool) :
    (s.prepare f).2 = (if s.goals.isEmpty = false ∧ s.target.isTask = true then .error .logic else .ok (.bool (!s.target.isTask && f)) : Res) := by
  obtain ⟨i, p, hg⟩ := h.good
  obtain ⟨r, hr, hl⟩ := h.road
  unfold St.prepare
  rw [initProblem_eq h hg.problem hr]
  by_cases hc : s.goals.isEmpty = false ∧ s.target.isTask = true
  · rw [if_pos hc, if_pos hc]
  · rw [if_neg hc, if_neg hc]
    simp only [St.pathExists, hr, List.getElem?_modify_eq, List.getElem?_eq_getElem hl]
    cases ht : s.target.isTask
    · simp [tag, Target.isTask]
    · simp [tag, ht]

theorem solve_target (h : Inv s) (hc : ¬ (s.goals.isEmpty = false ∧ s.target.isTask = true)) :
    ∃ i p, s.initProblem.1.problem = some (i, p) ∧ p.target = if s.target.isTask = true then s.target else .goals s.goals := by
  obtain ⟨i, p, hg⟩ := h.good
  obtain ⟨r, hr, hl⟩ := h.road
  rw [initProblem_eq h hg.problem hr, if_neg hc]
  exact ⟨i, _, rfl, rfl⟩

/-- The target that corresponds to a history: the goal constraints if there are any, the goal configurations otherwise. -/
def targetOf (g : List Q) : Option (K × Nat × List String) → Target Q K
  | some (e, n, l) => .task e n l
  | none => .goals g

theorem targetOf_eq (g : List Q) (t : Target Q K) : (if t.isTask = true then t else .goals g) = targetOf g t.asTask := by
  cases t <;> simp [Target.isTask, Target.asTask, targetOf]

/-- The outputs of the optimizers, one after the other, until one fails. -/
def refine (opt : String → P → Option P) : List String → P → List P
  | [], _ => []
  | n :: l, p => match opt n p with
    | none => []
    | some q => q :: refine opt l q

theorem optimizeLoop_eq (opt : String → P → Option P) : ∀ (l : List String) (p : P) (acc : List P),
    optimizeLoop opt l p acc = (acc ++ refine opt l p, if (refine opt l p).length = l.length then none else some .planning) := by
  intro l
  induction l with
  | nil => intro p acc; simp [optimizeLoop, refine]
  | cons n l ih =>
    intro p acc
    cases h : opt n p with
    | none => rw [show refine opt (n :: l) p = [] by simp only [refine, h]]; simp [optimizeLoop, h]
    | some q =>
      rw [show refine opt (n :: l) p = q :: refine opt l q by simp only [refine, h]]
      simp only [optimizeLoop, h, ih]; simp

theorem optimizePath_eq (hn : Names s.sel) {x : Nat × Pb Q C K} (hp : s.problem = some x) (p : P) :
    s.optimizePath E p = ({ s with optimizers := s.optTypes, paths := s.paths ++ refine E.optimize s.optTypes p },
      if (refine E.optimize s.optTypes p).length = s.optTypes.length then none else some .planning) := by
  have h : s.createPathOptimizers = ({ s with optimizers := s.optTypes }, none) := by
    unfold St.createPathOptimizers
    rw [hp]
    simp only
    rw [addValidations_all (s.has .optimizer) s.optTypes [] (fun n h => hn.optimizer n h)]
    simp
  unfold St.optimizePath
  rw [h]
  simp only
  rw [optimizeLoop_eq]

theorem solve_eq (h : Inv s) (r : Option P) :
    ((s.solve E r).1.paths, (s.solve E r).2) =
      if s.goals.isEmpty = false ∧ s.target.isTask = true then (s.paths, (.error .logic : Res))
      else match r with
        | none => (s.paths, .error .planning)
        | some p => (s.paths ++ p :: refine E.optimize s.optTypes p, if (refine E.optimize s.optTypes p).length = s.optTypes.length then .ok .unit else .error .planning) := by
  obtain ⟨i, p, hg⟩ := h.good
  obtain ⟨k, hr, hl⟩ := h.road
  unfold St.solve
  rw [initProblem_eq h hg.problem hr]
  by_cases hc : s.goals.isEmpty = false ∧ s.target.isTask = true
  · simp only [if_pos hc]
  · simp only [if_neg hc]
    cases r with
    | none => rfl
    | some path =>
      simp only
      rw [optimizePath_eq (E := E) (by exact h.names) rfl path]
      simp only
      by_cases hl : (refine E.optimize s.optTypes path).length = s.optTypes.length
      · simp only [if_pos hl, List.append_assoc, List.singleton_append]
      · simp only [if_neg hl, List.append_assoc, List.singleton_append]

/-- C98: after any calls with a robot given, `solve` and `prepareSolveStepByStep` throw `std::logic_error` if there are both goal configurations and goal constraints; otherwise the
target of the problem is the goal constraints, or the goal configurations added since they were last reset. -/
theorem C98_target (a b c : K) (l : List (Op Q P C K)) (hr : Op.robot ∈ l) (o : Op Q P C K) (ho : (∃ f, o = .prepare f) ∨ ∃ r, o = .solve r) :
    (goalsOf [] (run E (St.start a b c) l).2 ≠ [] ∧ (taskOf c 20 none (run E (St.start a b c) l).2).isSome = true →
      (step E (run E (St.start a b c) l).1 o).2 = .error .logic) ∧
    (¬ (goalsOf [] (run E (St.start a b c) l).2 ≠ [] ∧ (taskOf c 20 none (run E (St.start a b c) l).2).isSome = true) →
      (step E (run E (St.start a b c) l).1 o).2 ≠ .error .logic ∧
      ∃ i p, (step E (run E (St.start a b c) l).1 o).1.problem = some (i, p) ∧
        p.target = targetOf (goalsOf [] (run E (St.start a b c) l).2) (taskOf c 20 none (run E (St.start a b c) l).2)) := by
  have hi := run_robot (E := E) (start_names a b c) l hr
  have hg := run_goals (E := E) (s := St.start a b c) l
  have ht := run_task (E := E) (s := St.start a b c) l
  have key : ((run E (St.start a b c) l).1.goals.isEmpty = false ∧ (run E (St.start a b c) l).1.target.isTask = true) ↔
      (goalsOf [] (run E (St.start a b c) l).2 ≠ [] ∧ (taskOf c 20 none (run E (St.start a b c) l).2).isSome = true) := by
    rw [Target.isTask_eq, ht, hg, List.isEmpty_eq_false_iff]; exact Iff.rfl
  refine ⟨fun hc => ?_, fun hc => ⟨?_, ?_⟩⟩
  · rcases ho with ⟨f, rfl⟩ | ⟨r, rfl⟩
    · rw [show (step E (run E (St.start a b c) l).1 (.prepare f)).2 = _ from prepare_eq hi f, if_pos (key.mpr hc)]
    · have := solve_eq (E := E) hi r
      rw [if_pos (key.mpr hc)] at this
      exact congrArg (fun x => x.2) this
  · rcases ho with ⟨f, rfl⟩ | ⟨r, rfl⟩
    · rw [show (step E (run E (St.start a b c) l).1 (.prepare f)).2 = _ from prepare_eq hi f, if_neg (fun h => hc (key.mp h))]
      intro h; cases h
    · have := solve_eq (E := E) hi r
      rw [if_neg (fun h => hc (key.mp h))] at this
      rw [show (step E (run E (St.start a b c) l).1 (.solve r)).2 = _ from congrArg (fun x => x.2) this]
      cases r with
      | none => intro h; cases h
      | some p => simp only; split <;> (intro h; cases h)
  · obtain ⟨i, p, hp, h1⟩ := solve_target hi (fun h => hc (key.mp h))
    rw [targetOf_eq, ht, hg] at h1
    refine ⟨i, p, ?_, h1⟩
    rcases ho with ⟨f, rfl⟩ | ⟨r, rfl⟩
    · exact (prepare_keep f).1.trans hp
    · exact (solve_keep (E := E) r).1.trans hp

/-- C98: the answer of `prepareSolveStepByStep` when it does not throw: with goal configurations, whether the planner reached one; with goal constraints, always no. -/
theorem C98_prepare (a b c : K) (l : List (Op Q P C K)) (hr : Op.robot ∈ l) (f : Bool)
    (hc : ¬ (goalsOf [] (run E (St.start a b c) l).2 ≠ [] ∧ (taskOf c 20 none (run E (St.start a b c) l).2).isSome = true)) :
    (step E (run E (St.start a b c) l).1 (.prepare f)).2 = .ok (.bool (f && (taskOf c 20 none (run E (St.start a b c) l).2).isNone)) := by
  have hi := run_robot (E := E) (start_names a b c) l hr
  have hg := run_goals (E := E) (s := St.start a b c) l
  have ht := run_task (E := E) (s := St.start a b c) l
  have h0 : ¬ ((run E (St.start a b c) l).1.goals.isEmpty = false ∧ (run E (St.start a b c) l).1.target.isTask = true) := by
    rw [Target.isTask_eq, ht, hg, List.isEmpty_eq_false_iff]; exact hc
  rw [show (step E (run E (St.start a b c) l).1 (.prepare f)).2 = _ from prepare_eq hi f, if_neg h0, Target.isTask_eq, ht]
  show Except.ok (Ret.bool (!(taskOf c 20 none (run E (St.start a b c) l).2).isSome && f)) = _
  cases taskOf c 20 none (run E (St.start a b c) l).2 <;> cases f <;> rfl

/-! ## C99: constraints -/

/-- Constraints added since the constraints were last reset. -/
def consOf (d : List C) : List (Op Q P C K × Res) → List C
  | [] => d
  | (.robot, _) :: t => consOf [] t
  | (.resetConstraints, _) :: t => consOf [] t
  | (.addConstraint (.other c), .ok _) :: t => consOf (d ++ [c]) t
  | _ :: t => consOf d t

/-- Numerical constraints given to the config projector since the constraints were last reset. -/
def numsOf (d : List String) : List (Op Q P C K × Res) → List String
  | [] => d
  | (.robot, _) :: t => numsOf [] t
  | (.resetConstraints, _) :: t => numsOf [] t
  | (.addToProjector n, .ok _) :: t => numsOf (d ++ [n]) t
  | _ :: t => numsOf d t

def CSet.nums (c : CSet C K) : List String := match c.proj with
  | none => []
  | some x => x.2.2

def St.curCons (s : St Q P C K) : List C := (s.cur.map (·.cons)).getD []
def St.curNums (s : St Q P C K) : List String := (s.cur.map (·.nums)).getD []

theorem addConstraint_res (hv : Valid s) (c : Con C K) : (∃ x, s.cur.bind (·.add c) = some x ∧ (step E s (.addConstraint c)).2 = .ok .unit) ∨
    (s.cur.bind (·.add c) = none ∧ ∃ e, (step E s (.addConstraint c)).2 = .error e) := by
  simp only [step]
  cases hc : s.cset with
  | none =>
    have : s.cur = none := by unfold St.cur; rw [hc]; rfl
    have hr : s.robot = false := by rw [hv.robot, hc]; rfl
    rw [this, hr]; exact Or.inr ⟨rfl, _, rfl⟩
  | some i =>
    have : s.cur = s.sets[i]? := by unfold St.cur; rw [hc]; rfl
    have hr : s.robot = true := by rw [hv.robot, hc]; rfl
    rw [this, hr]
    simp only
    cases h : s.sets[i]?.bind (·.add c) with
    | none => exact Or.inr ⟨rfl, _, rfl⟩
    | some x => exact Or.inl ⟨x, rfl, rfl⟩

theorem addToProjector_res (n : String) : (s.cset.isSome = true ∧ s.numerical.contains n = true ∧ (step E s (.addToProjector n)).2 = .ok .unit) ∨
    (¬ (s.cset.isSome = true ∧ s.numerical.contains n = true) ∧ ∃ e, (step E s (.addToProjector n)).2 = .error e) := by
  simp only [step, St.addToProjector]
  cases hc : s.cset with
  | none => exact Or.inr ⟨fun h => (by cases h.1), _, rfl⟩
  | some i =>
    simp only
    by_cases h : s.numerical.contains n = true
    · rw [if_pos h]; exact Or.inl ⟨rfl, h, rfl⟩
    · rw [if_neg h]; exact Or.inr ⟨fun h' => h h'.2, _, rfl⟩

theorem run_cons (hv : Valid s) (l : List (Op Q P C K)) : (run E s l).1.curCons = consOf s.curCons (run E s l).2 := by
  induction l generalizing s with
  | nil => rfl
  | cons o l ih =>
    simp only [run]
    rw [ih (step_cur hv o).1]
    unfold St.curCons
    rw [(step_cur hv o).2]
    cases o with
    | robot => rfl
    | resetConstraints => simp only [curStep, consOf]; cases s.cur <;> rfl
    | addConstraint c =>
      simp only [curStep]
      rcases addConstraint_res (E := E) hv c with ⟨x, h1, h2⟩ | ⟨h1, e, h2⟩
      · rw [h1, h2]
        obtain ⟨y, hy, hx⟩ := Option.bind_eq_some_iff.mp h1
        rw [hy]
        cases c with
        | other c => simp only [CSet.add, Option.some.injEq] at hx; subst hx; simp [consOf]
        | projector e n =>
          simp only [CSet.add] at hx
          split at hx
          · cases hx
          · simp only [Option.some.injEq] at hx; subst hx; simp [consOf]
      · rw [h1, h2]; cases c <;> rfl
    | addToProjector n =>
      simp only [curStep, consOf]
      cases s.cur with
      | none => rfl
      | some c =>
        simp only [Option.map_some, Option.getD_some, CSet.ensure]
        split <;> split <;> rfl
    | maxIterProjection n => simp only [curStep, consOf]; cases s.cur <;> rfl
    | errorThreshold n => simp only [curStep, consOf]; cases s.cur <;> rfl
    | _ => rfl

theorem run_nums (hv : Valid s) (l : List (Op Q P C K)) : (run E s l).1.curNums = numsOf s.curNums (run E s l).2 := by
  induction l generalizing s with
  | nil => rfl
  | cons o l ih =>
    simp only [run]
    rw [ih (step_cur hv o).1]
    unfold St.curNums
    rw [(step_cur hv o).2]
    cases o with
    | robot => rfl
    | resetConstraints => simp only [curStep, numsOf]; cases s.cur <;> rfl
    | addConstraint c =>
      simp only [curStep, numsOf]
      rcases addConstraint_res (E := E) hv c with ⟨x, h1, h2⟩ | ⟨h1, e, h2⟩
      · rw [h1]
        obtain ⟨y, hy, hx⟩ := Option.bind_eq_some_iff.mp h1
        rw [hy]
        cases c with
        | other c => simp only [CSet.add, Option.some.injEq] at hx; subst hx; simp [CSet.nums]
        | projector e n =>
          simp only [CSet.add] at hx
          split at hx
          · cases hx
          · rename_i h0
            simp only [Option.some.injEq] at hx; subst hx; simp [CSet.nums, h0]
      · rw [h1]
    | addToProjector n =>
      simp only [curStep]
      rcases addToProjector_res (E := E) (s := s) n with ⟨h1, h2, h3⟩ | ⟨h1, e, h3⟩
      · rw [h3]
        simp only [numsOf, h2, if_true]
        obtain ⟨c, hc⟩ := Option.isSome_iff_exists.mp h1
        have hl := hv.set c hc
        have : s.cur = some s.sets[c] := by unfold St.cur; rw [hc]; exact List.getElem?_eq_getElem hl
        rw [this]
        cases hp : s.sets[c].proj <;> simp [CSet.ensure, CSet.mapProj, CSet.nums, hp]
      · rw [h3]
        simp only [numsOf]
        cases hcur : s.cur with
        | none => rfl
        | some x =>
          have : s.numerical.contains n = false := by
            cases hn : s.numerical.contains n with
            | false => rfl
            | true =>
              refine absurd ⟨?_, hn⟩ h1
              cases hc : s.cset with
              | none => simp [St.cur, hc] at hcur
              | some c => rfl
          simp only [this, Option.map_some, Option.getD_some]
          cases hp : x.proj <;> simp [CSet.ensure, CSet.nums, hp]
    | maxIterProjection n => simp only [curStep, numsOf]; cases s.cur with
      | none => rfl
      | some x => simp only [Option.map_some, Option.getD_some, CSet.mapProj, CSet.nums]; cases x.proj <;> rfl
    | errorThreshold n => simp only [curStep, numsOf]; cases s.cur with
      | none => rfl
      | some x => simp only [Option.map_some, Option.getD_some, CSet.mapProj, CSet.nums]; cases x.proj <;> rfl
    | _ => rfl

/-- The config projector of the solver, if any, has the error threshold and the maximal number of iterations of the solver. -/
def Tuned (s : St Q P C K) : Prop := ∀ c x, s.cur = some c → c.proj = some x → x.1 = s.errThr ∧ x.2.1 = s.maxIterProj

theorem step_tuned (hv : Valid s) (h : Tuned s) (o : Op Q P C K) (ho : ∀ e n, o ≠ .addConstraint (.projector e n)) : Tuned (step E s o).1 := by
  intro c x hc hx
  rw [(step_cur hv o).2] at hc
  have h1 := congrArg Sel.errThr (step_sel (E := E) (s := s) o)
  have h2 := congrArg Sel.maxIterProj (step_sel (E := E) (s := s) o)
  rw [show (step E s o).1.errThr = (selStep s.sel o).errThr from h1, show (step E s o).1.maxIterProj = (selStep s.sel o).maxIterProj from h2]
  cases o with
  | robot => cases hc; cases hx
  | resetConstraints =>
    simp only [curStep, Option.map_eq_some_iff] at hc
    obtain ⟨y, hy, rfl⟩ := hc
    cases hx
  | addConstraint k =>
    cases k with
    | projector e n => exact absurd rfl (ho e n)
    | other k =>
      simp only [curStep] at hc
      cases hcur : s.cur with
      | none => rw [hcur] at hc; cases hc
      | some y =>
        rw [hcur] at hc
        simp only [Option.bind_some, CSet.add, Option.some.injEq] at hc
        subst hc
        exact h y x hcur hx
  | addToProjector n =>
    simp only [curStep, Option.map_eq_some_iff] at hc
    obtain ⟨y, hy, rfl⟩ := hc
    cases hp : y.proj with
    | none =>
      split at hx
      · simp only [CSet.ensure, hp, CSet.mapProj, Option.map_some, Option.some.injEq] at hx; subst hx; exact ⟨rfl, rfl⟩
      · simp only [CSet.ensure, hp, Option.some.injEq] at hx; subst hx; exact ⟨rfl, rfl⟩
    | some z =>
      have := h y z hy hp
      split at hx
      · simp only [CSet.ensure, hp, CSet.mapProj, Option.map_some, Option.some.injEq] at hx; subst hx; exact this
      · simp only [CSet.ensure, hp, Option.some.injEq] at hx; subst hx; exact this
  | maxIterProjection n =>
    simp only [curStep, Option.map_eq_some_iff] at hc
    obtain ⟨y, hy, rfl⟩ := hc
    simp only [CSet.mapProj, Option.map_eq_some_iff] at hx
    obtain ⟨z, hz, rfl⟩ := hx
    exact ⟨(h y z hy hz).1, rfl⟩
  | errorThreshold e =>
    simp only [curStep, Option.map_eq_some_iff] at hc
    obtain ⟨y, hy, rfl⟩ := hc
    simp only [CSet.mapProj, Option.map_eq_some_iff] at hx
    obtain ⟨z, hz, rfl⟩ := hx
    exact ⟨rfl, (h y z hy hz).2⟩
  | _ =>
    have := h c x hc hx
    first
      | exact this
      | (simp only [selStep]; split <;> exact this)

/-- Error threshold and maximal number of iterations last set. -/
def selErr : Op Q P C K → Option K
  | .errorThreshold e => some e
  | _ => none
def selIter : Op Q P C K → Option Nat
  | .maxIterProjection n => some n
  | _ => none

theorem run_err (l : List (Op Q P C K)) : (run E s l).1.errThr = lastOk selErr s.errThr (run E s l).2 := by
  refine lastOk_run selErr Sel.errThr ?_ ?_ l s
  · intro x o h; cases o <;> first | rfl | (cases h; done) | (simp only [selStep]; split <;> rfl)
  · intro s o a h; cases o <;> try cases h
    exact Or.inl ⟨_, rfl, rfl⟩

theorem run_iter (l : List (Op Q P C K)) : (run E s l).1.maxIterProj = lastOk selIter s.maxIterProj (run E s l).2 := by
  refine lastOk_run selIter Sel.maxIterProj ?_ ?_ l s
  · intro x o h; cases o <;> first | rfl | (cases h; done) | (simp only [selStep]; split <;> rfl)
  · intro s o a h; cases o <;> try cases h
    exact Or.inl ⟨_, rfl, rfl⟩

theorem run_tuned (hv : Valid s) (h : Tuned s) (l : List (Op Q P C K)) (ho : ∀ e n, .addConstraint (.projector e n) ∉ l) : Tuned (run E s l).1 := by
  induction l generalizing s with
  | nil => exact h
  | cons o l ih =>
    exact ih (step_cur hv o).1 (step_tuned hv h o fun e n he => ho e n (by rw [he]; exact List.mem_cons_self ..)) fun e n he => ho e n (List.mem_cons_of_mem _ he)

/-- C99: after any calls with a robot given, the problem and its steering method have the same constraint set: the constraints that were added, and the numerical constraints
given to the config projector, since the constraints were last reset (or the robot set). -/
theorem C99_shared (a b c : K) (l : List (Op Q P C K)) (hr : Op.robot ∈ l) :
    ∃ i p x, (run E (St.start a b c) l).1.problem = some (i, p) ∧ (run E (St.start a b c) l).1.cset = some p.cset ∧ p.sm.cset = p.cset ∧
      (run E (St.start a b c) l).1.sets[p.cset]? = some x ∧
      x.cons = consOf [] (run E (St.start a b c) l).2 ∧ x.nums = numsOf [] (run E (St.start a b c) l).2 := by
  obtain ⟨i, p, hg⟩ := (run_robot (E := E) (start_names a b c) l hr).good
  have hl := hg.set
  have hcur : (run E (St.start a b c) l).1.cur = some ((run E (St.start a b c) l).1.sets[p.cset]) := by
    unfold St.cur; rw [hg.cset]; exact List.getElem?_eq_getElem hl
  have h1 := run_cons (E := E) (start_valid a b c) l
  have h2 := run_nums (E := E) (start_valid a b c) l
  unfold St.curCons at h1
  unfold St.curNums at h2
  rw [hcur] at h1 h2
  exact ⟨i, p, _, hg.problem, hg.cset, hg.sm, List.getElem?_eq_getElem hl, h1, h2⟩

/-- C99: the config projector has the error threshold and the maximal number of iterations last set, whether they were set before or after it was created.  Partial: no
config projector was added by `addConstraint` (`C99_settings_counterexample`). -/
theorem C99_settings_partial (a b c : K) (l : List (Op Q P C K)) (ho : ∀ e n, .addConstraint (.projector e n) ∉ l) (i : Nat) (x : CSet C K) (y : K × Nat × List String)
    (hi : (run E (St.start a b c) l).1.cset = some i) (hx : (run E (St.start a b c) l).1.sets[i]? = some x) (hy : x.proj = some y) :
    y.1 = lastOk selErr c (run E (St.start a b c) l).2 ∧ y.2.1 = lastOk selIter 20 (run E (St.start a b c) l).2 := by
  have h := run_tuned (E := E) (start_valid a b c) (fun c x hc _ => (by cases hc)) l ho
  have := h x y (by unfold St.cur; rw [hi]; exact hx) hy
  rw [run_err, run_iter] at this
  exact this

end Verif.Session
