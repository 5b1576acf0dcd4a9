import Verif.Problem.SessionThms
set_option linter.unusedSectionVars false
set_option linter.unusedVariables false

/-! # Sessions with `ProblemSolver`: paths, step by step resolution (C100, C101), examples and counterexamples (C97-C101) -/
namespace Verif.Session
variable {Q P C K : Type} {E : Env Q P C K} {s : St Q P C K}

/-! ## C100: paths -/

/-- C100: after any calls with a robot given, a call to `solve` that succeeds appends the path of the planner, then the output of each optimizer selected since the optimizers
were last cleared, in order, each one applied to the output of the previous one; if the planner or an optimizer fails, the outputs before the failure are kept. -/
theorem C100_solve (a b c : K) (l : List (Op Q P C K)) (hr : Op.robot ∈ l) (r : Option P) :
    ((step E (run E (St.start a b c) l).1 (.solve r)).1.paths, (step E (run E (St.start a b c) l).1 (.solve r)).2) =
      if goalsOf [] (run E (St.start a b c) l).2 ≠ [] ∧ (taskOf c 20 none (run E (St.start a b c) l).2).isSome = true then
        ((run E (St.start a b c) l).1.paths, (.error .logic : Res))
      else match r with
        | none => ((run E (St.start a b c) l).1.paths, .error .planning)
        | some p => ((run E (St.start a b c) l).1.paths ++ p :: refine E.optimize (optsOf [] (run E (St.start a b c) l).2) p,
          if (refine E.optimize (optsOf [] (run E (St.start a b c) l).2) p).length = (optsOf [] (run E (St.start a b c) l).2).length then .ok .unit else .error .planning) := by
  have hi := run_robot (E := E) (start_names a b c) l hr
  have hg := run_goals (E := E) (s := St.start a b c) l
  have ht := run_task (E := E) (s := St.start a b c) l
  have hop := run_opts (E := E) (s := St.start a b c) l
  have h := solve_eq (E := E) hi r
  rw [hop] at h
  have key : ((run E (St.start a b c) l).1.goals.isEmpty = false ∧ (run E (St.start a b c) l).1.target.isTask = true) ↔
      (goalsOf [] (run E (St.start a b c) l).2 ≠ [] ∧ (taskOf c 20 none (run E (St.start a b c) l).2).isSome = true) := by
    rw [Target.isTask_eq, ht, hg, List.isEmpty_eq_false_iff]; exact Iff.rfl
  rw [show (step E (run E (St.start a b c) l).1 (.solve r)) = St.solve E (run E (St.start a b c) l).1 r from rfl, h]
  by_cases hc : goalsOf [] (run E (St.start a b c) l).2 ≠ [] ∧ (taskOf c 20 none (run E (St.start a b c) l).2).isSome = true
  · rw [if_pos (key.mpr hc), if_pos hc]
  · rw [if_neg fun h => hc (key.mp h), if_neg hc]; rfl

theorem initProblem_paths : s.initProblem.1.paths = s.paths := by
  unfold St.initProblem
  split
  · rfl
  · split
    · simp only [St.initSteeringMethod, St.initPlanner, St.initPathProjector, St.initTarget]
      split
      · rename_i h
        split at h <;> (have := congrArg (fun x => x.1.paths) h; exact this.symm)
      · rename_i s2 h
        have h2 : s2.paths = s.paths := by split at h <;> (have := congrArg (fun x => x.1.paths) h; exact this.symm)
        split
        · rename_i s3 e h
          split at h
          · split at h
            · exact (congrArg (fun x => x.1.paths) h).symm.trans h2
            · exact (congrArg (fun x => x.1.paths) h).symm.trans h2
          · exact (congrArg (fun x => x.1.paths) h).symm.trans h2
        · rename_i s3 h
          have h3 : s3.paths = s.paths := by
            split at h
            · split at h
              · exact (congrArg (fun x => x.1.paths) h).symm.trans h2
              · exact (congrArg (fun x => x.1.paths) h).symm.trans h2
            · exact (congrArg (fun x => x.1.paths) h).symm.trans h2
          split
          · rename_i s4 e h
            split at h
            · exact (congrArg (fun x => x.1.paths) h).symm.trans h3
            · split at h <;> exact (congrArg (fun x => x.1.paths) h).symm.trans h3
          · rename_i s4 h
            have h4 : s4.paths = s.paths := by
              split at h
              · exact (congrArg (fun x => x.1.paths) h).symm.trans h3
              · split at h <;> exact (congrArg (fun x => x.1.paths) h).symm.trans h3
            split
            · exact h4
            · split <;> exact h4
    · rfl

theorem optimizeLoop_append (opt : String → P → Option P) : ∀ (l : List String) (p : P) (acc : List P), ∃ t, (optimizeLoop opt l p acc).1 = acc ++ t :=
  fun l p acc => ⟨_, congrArg (·.1) (optimizeLoop_eq opt l p acc)⟩

theorem optimizePath_paths (p : P) : ∃ t, (s.optimizePath E p).1.paths = s.paths ++ t := by
  unfold St.optimizePath
  have h : s.createPathOptimizers.1.paths = s.paths := by unfold St.createPathOptimizers; split <;> rfl
  split
  · rename_i h1; rw [h1] at h; exact ⟨[], by rw [List.append_nil]; exact h⟩
  · rename_i h1; rw [h1] at h; simp only at h
    simp only [← h]; exact optimizeLoop_append ..

theorem resetProblem_paths : s.resetProblem.1.paths = s.paths := by
  unfold St.resetProblem
  split
  · simp only [St.resetRoadmap]
    split
    · rename_i h; unfold St.initPathValidation at h; simp only at h
      split at h <;> exact (congrArg (fun x => x.1.paths) h).symm
    · rename_i s4 h; unfold St.initPathValidation at h; simp only at h
      have : s4.paths = s.paths := by split at h <;> exact (congrArg (fun x => x.1.paths) h).symm
      unfold St.initConfigValidation
      split
      · exact this
      · split <;> exact this
  · rfl

/-- C100: no call other than `erasePath` removes or changes a path: numbers of paths remain valid. -/
theorem C100_append (o : Op Q P C K) (ho : ∀ i, o ≠ .erasePath i) : ∃ t, (step E s o).1.paths = s.paths ++ t := by
  have nil : ∀ {l : List P}, l = s.paths → ∃ t, l = s.paths ++ t := fun h => ⟨[], by rw [List.append_nil]; exact h⟩
  cases o with
  | robot => exact nil resetProblem_paths
  | resetProblem => exact nil resetProblem_paths
  | setGoalConstraints l => simp only [step]; split <;> exact nil rfl
  | plannerType n => simp only [step]; split <;> exact nil rfl
  | distanceType n => simp only [step]; split <;> exact nil rfl
  | steeringMethodType n =>
    simp only [step]
    split
    · split
      · exact nil rfl
      · simp only [St.initSteeringMethod, unitRes]; split
        · exact nil rfl
        · split <;> exact nil rfl
    · exact nil rfl
  | shooterType n => simp only [step]; split <;> exact nil rfl
  | addPathOptimizer n => simp only [step]; split <;> exact nil rfl
  | pathValidationType n t =>
    simp only [step]
    split
    · split
      · simp only [St.initPathValidation, unitRes]; split
        · exact nil rfl
        · split <;> exact nil rfl
      · exact nil rfl
    · exact nil rfl
  | pathProjectorType n t =>
    simp only [step]
    split
    · split
      · simp only [St.initPathProjector, unitRes]; split
        · exact nil rfl
        · split <;> exact nil rfl
      · exact nil rfl
    · exact nil rfl
  | addConfigValidation n =>
    simp only [step]
    split
    · split
      · exact nil rfl
      · simp only [St.initConfigValidation, unitRes]; split
        · exact nil rfl
        · split <;> exact nil rfl
    · exact nil rfl
  | clearConfigValidations => simp only [step]; split <;> exact nil rfl
  | addConstraint c =>
    simp only [step]
    split
    · split <;> exact nil rfl
    · exact nil rfl
    · exact nil rfl
  | resetConstraints => simp only [step]; split <;> exact nil rfl
  | addToProjector n =>
    simp only [step, St.addToProjector]
    split
    · exact nil rfl
    · split <;> exact nil rfl
  | resetRoadmap => simp only [step, St.resetRoadmap, unitRes]; split <;> exact nil rfl
  | initDistance =>
    simp only [step, St.initDistance, unitRes]
    split
    · exact nil rfl
    · split <;> exact nil rfl
  | solve r =>
    simp only [step, St.solve]
    have h := initProblem_paths (s := s)
    split
    · rename_i h1; rw [h1] at h; exact nil h
    · rename_i h1; rw [h1] at h; simp only at h
      split
      · split
        · exact nil h
        · rename_i path
          have k : ∀ (s0 s3 : St Q P C K) e, s0.optimizePath E path = (s3, e) → ∃ t, s3.paths = s0.paths ++ t :=
            fun s0 s3 e h => by have := optimizePath_paths (E := E) (s := s0) path; rw [h] at this; exact this
          split
          · rename_i h2
            obtain ⟨t, ht⟩ := k _ _ _ h2
            exact ⟨path :: t, by rw [ht, ← h]; simp⟩
          · rename_i h2
            obtain ⟨t, ht⟩ := k _ _ _ h2
            exact ⟨path :: t, by rw [ht, ← h]; simp⟩
      · exact nil h
  | prepare b =>
    simp only [step, St.prepare]
    have h := initProblem_paths (s := s)
    split
    · rename_i h1; rw [h1] at h; exact nil h
    · rename_i h1; rw [h1] at h
      split
      · exact nil h
      · exact nil h
  | oneStep b =>
    simp only [step, St.oneStep]
    split
    · exact nil rfl
    · split <;> exact nil rfl
  | finish p =>
    simp only [step, St.finish]
    split
    · exact nil rfl
    · split
      · exact nil rfl
      · split
        · exact nil rfl
        · exact ⟨[p], rfl⟩
    · exact nil rfl
  | directPath a b v =>
    simp only [step, St.directPath]
    split
    · exact nil rfl
    · split
      · exact nil rfl
      · split
        · exact nil rfl
        · split
          · split
            · exact nil rfl
            · exact ⟨_, rfl⟩
          · exact ⟨_, rfl⟩
  | addPath p => exact ⟨[p], rfl⟩
  | erasePath i => exact absurd rfl (ho i)
  | pbAddGoal q => simp only [step]; split <;> exact nil rfl
  | pbSteeringMethod n => simp only [step]; split <;> exact nil rfl
  | pbShooter n => simp only [step]; split <;> exact nil rfl
  | _ => exact nil rfl

/-- C100: a path remains at its number as long as `erasePath` is not called. -/
theorem C100_ids (l : List (Op Q P C K)) (hl : ∀ i, .erasePath i ∉ l) (k : Nat) (p : P) (hk : s.paths[k]? = some p) : (run E s l).1.paths[k]? = some p := by
  induction l generalizing s with
  | nil => exact hk
  | cons o l ih =>
    refine ih (fun i hi => hl i (List.mem_cons_of_mem _ hi)) ?_
    obtain ⟨t, ht⟩ := C100_append (E := E) (s := s) o (fun i hi => hl i (by rw [hi]; exact List.mem_cons_self ..))
    rw [ht, List.getElem?_append_left]
    · exact hk
    · exact (List.getElem?_eq_some_iff.mp hk).1

/-- C100: `addPath` answers the number of the path; `erasePath` removes the path of this number, moves the following ones by one, and keeps the others. -/
theorem C100_add_erase (p : P) (i : Nat) (hi : i < s.paths.length) :
    (∃ k, (step E s (.addPath p)).2 = .ok (.id k) ∧ (step E s (.addPath p)).1.paths[k]? = some p) ∧
    (step E s (.erasePath i)).2 = .ok .unit ∧ (∀ k < i, (step E s (.erasePath i)).1.paths[k]? = s.paths[k]?) ∧ ∀ k ≥ i, (step E s (.erasePath i)).1.paths[k]? = s.paths[k + 1]? := by
  refine ⟨⟨s.paths.length, rfl, by simp [step]⟩, ?_, ?_, ?_⟩
  · simp only [step, if_pos hi]
  · intro k hk; simp only [step, if_pos hi]; rw [List.getElem?_eraseIdx_of_lt hk]
  · intro k hk; simp only [step, if_pos hi]; rw [List.getElem?_eraseIdx_of_ge hk]

/-- C100: what `directPath` answers.  Without path from the steering method: no, no path is added.  Without validation: yes, the path of the steering method is added.
With validation: the answer is that the projection succeeded and the projected path is valid; the valid part of the projected path is added in any case; the report is empty if and only if
the projected path is valid.  The number that is answered is the one of the path that is added. -/
theorem C100_direct (i : Nat) (p : Pb Q C K) (x : CSet C K) (a b : Q) (hp : s.problem = some (i, p)) (hx : s.sets[p.sm.cset]? = some x) :
    (E.steer p.sm.name x a b = none → ∀ v, step E s (.directPath a b v) = (s, .ok (.direct false none false))) ∧
    ∀ dp, E.steer p.sm.name x a b = some dp →
      step E s (.directPath a b false) = ({ s with paths := s.paths ++ [dp] }, .ok (.direct true (some s.paths.length) true)) ∧
      (p.proj = none →
        step E s (.directPath a b true) = ({ s with paths := s.paths ++ [(E.validate p.pv dp).2.1] },
          .ok (.direct (E.validate p.pv dp).1 (some s.paths.length) (E.validate p.pv dp).1))) ∧
      ∀ f, p.proj = some f →
        (∀ dp1, (E.project f dp).2 = some dp1 →
          step E s (.directPath a b true) = ({ s with paths := s.paths ++ [(E.validate p.pv dp1).2.1] },
            .ok (.direct ((E.validate p.pv dp1).1 && (E.project f dp).1) (some s.paths.length) (E.validate p.pv dp1).1))) ∧
        ((E.project f dp).2 = none → step E s (.directPath a b true) = (s, .error .ub)) := by
  refine ⟨fun h v => ?_, fun dp h => ⟨?_, fun hq => ?_, fun f hf => ⟨fun dp1 h1 => ?_, fun h1 => ?_⟩⟩⟩
  · simp only [step, St.directPath, hp, hx, h]
  · simp only [step, St.directPath, hp, hx, h]; rfl
  · simp only [step, St.directPath, hp, hx, h, checkDirect, hq, if_true, Bool.and_true]
  · cases hw : E.project f dp with | mk u w
    rw [hw] at h1; simp only at h1; subst h1
    simp only [step, St.directPath, hp, hx, h, checkDirect, hf, if_true, hw]
  · cases hw : E.project f dp with | mk u w
    rw [hw] at h1; simp only at h1; subst h1
    simp only [step, St.directPath, hp, hx, h, checkDirect, hf, if_true, hw]

/-! ## C101: step by step -/

/-- Calls that change the problem, the roadmap or the planner as a whole. -/
def Op.resets : Op Q P C K → Bool
  | .robot | .resetProblem | .resetRoadmap | .prepare _ | .solve _ => true
  | _ => false

/-- Whether one of the steps reached a goal. -/
def anyFound (d : Bool) : List (Op Q P C K) → Bool
  | [] => d
  | .oneStep f :: t => anyFound (d || f) t
  | _ :: t => anyFound d t

/-- The planner works on the problem and the roadmap of the solver, for goal configurations; `g`: a goal was reached. -/
structure Stepping (s : St Q P C K) (g : Bool) : Prop where
  ok : ∃ i p x r, s.problem = some (i, p) ∧ s.planner = some x ∧ x.prob = i ∧ s.roadmap = some x.road ∧ s.roads[x.road]? = some r ∧ p.target.isTask = false ∧ r.init = true ∧ r.goal = g

theorem step_stepping {g : Bool} (h : Stepping s g) (o : Op Q P C K) (ho : o.resets = false) : Stepping (step E s o).1 (anyFound g [o]) ∧
    (∀ f, o = .oneStep f → (step E s o).2 = .ok (.bool (g || f))) ∧
    (∀ path, o = .finish path → (step E s o).2 = if g = true then .ok .unit else .error .logic) := by
  obtain ⟨i, p, x, r, hp, hx, hi, hr, hrd, ht, h1, h2⟩ := h.ok
  have same : ∀ s' : St Q P C K, s'.problem = s.problem → s'.planner = s.planner → s'.roadmap = s.roadmap → s'.roads = s.roads → Stepping s' g :=
    fun s' k1 k2 k3 k4 => ⟨i, p, x, r, k1.trans hp, k2.trans hx, hi, k3.trans hr, by rw [k4]; exact hrd, ht, h1, h2⟩
  have prob : ∀ (s' : St Q P C K) p', s'.problem = some (i, p') → p'.target.isTask = false → s'.planner = s.planner → s'.roadmap = s.roadmap → s'.roads = s.roads → Stepping s' g :=
    fun s' p' k1 kt k2 k3 k4 => ⟨i, p', x, r, k1, k2.trans hx, hi, k3.trans hr, by rw [k4]; exact hrd, kt, h1, h2⟩
  have exist : s.pathExists = .ok (.bool g) := by simp only [St.pathExists, hr, hrd, h1, if_true, h2]
  have pl : s.plannerProblem x = some p := by simp only [St.plannerProblem, hp]; rw [if_pos hi.symm]
  cases o with
  | robot => cases ho
  | resetProblem => cases ho
  | resetRoadmap => cases ho
  | prepare f => cases ho
  | solve f => cases ho
  | oneStep f =>
    have he : step E s (.oneStep f) = (({ s with roads := s.roads.modify x.road (fun y => if y.init = true then tag p.target true f y else y) } : St Q P C K),
        St.pathExists { s with roads := s.roads.modify x.road (fun y => if y.init = true then tag p.target true f y else y) }) := by
      simp only [step, St.oneStep, hx, pl]
    rw [he]
    have hnew : (s.roads.modify x.road (fun y => if y.init = true then tag p.target true f y else y))[x.road]? = some (tag p.target true f r) := by
      rw [List.getElem?_modify_eq, hrd]; simp [h1]
    have hgoal : (tag p.target true f r).goal = (g || f) := by simp only [tag, ht, h2]; cases g <;> cases f <;> rfl
    refine ⟨⟨i, p, x, _, hp, hx, hi, hr, hnew, ht, rfl, hgoal⟩, fun f' hf => ?_, fun f' hf => (by cases hf)⟩
    cases hf
    simp only [St.pathExists, hr, hnew]
    rw [if_pos (show (tag p.target true f r).init = true from rfl), hgoal]
  | finish path =>
    have he : step E s (.finish path) = if g = true then (({ s with paths := s.paths ++ [path] } : St Q P C K), (.ok .unit : Res)) else (s, .error .logic) := by
      simp only [step, St.finish, exist]
      cases g
      · rfl
      · simp only [hx, pl]; rfl
    rw [he]
    refine ⟨?_, fun f hf => (by cases hf), fun f hf => ?_⟩
    · split <;> exact same _ rfl rfl rfl rfl
    · split <;> rfl
  | setGoalConstraints l => refine ⟨?_, fun f hf => (by cases hf), fun f hf => (by cases hf)⟩; simp only [step]; split <;> exact same _ rfl rfl rfl rfl
  | plannerType n => refine ⟨?_, fun f hf => (by cases hf), fun f hf => (by cases hf)⟩; simp only [step]; split <;> exact same _ rfl rfl rfl rfl
  | distanceType n => refine ⟨?_, fun f hf => (by cases hf), fun f hf => (by cases hf)⟩; simp only [step]; split <;> exact same _ rfl rfl rfl rfl
  | steeringMethodType n =>
    refine ⟨?_, fun f hf => (by cases hf), fun f hf => (by cases hf)⟩
    by_cases hc : s.has .steering n = true
    · rw [step_steering E hc hp]; exact prob _ _ rfl ht rfl rfl rfl
    · simp only [step]; rw [if_neg hc]; exact h
  | shooterType n =>
    refine ⟨?_, fun f hf => (by cases hf), fun f hf => (by cases hf)⟩
    simp only [step]
    by_cases hc : s.has .shooter n = true
    · rw [if_pos hc]
      by_cases hb : s.robot = true
      · exact prob _ { p with shooter := n } (by simp only [hb, if_true, hp, Option.map_some]) ht rfl rfl rfl
      · exact same _ (by simp only [hb]; rfl) rfl rfl rfl
    · rw [if_neg hc]; exact h
  | addPathOptimizer n => refine ⟨?_, fun f hf => (by cases hf), fun f hf => (by cases hf)⟩; simp only [step]; split <;> exact same _ rfl rfl rfl rfl
  | pathValidationType n t =>
    refine ⟨?_, fun f hf => (by cases hf), fun f hf => (by cases hf)⟩
    by_cases hc : s.has .pathValidation n = true
    · by_cases hb : s.robot = true
      · rw [step_pathValidation E hc hb hp]; exact prob _ _ rfl ht rfl rfl rfl
      · simp only [step]; rw [if_pos hc, if_neg (fun h => hb h.1)]; exact same _ rfl rfl rfl rfl
    · simp only [step]; rw [if_neg hc]; exact h
  | pathProjectorType n t =>
    refine ⟨?_, fun f hf => (by cases hf), fun f hf => (by cases hf)⟩
    by_cases hc : s.has .projector n = true
    · by_cases hb : s.robot = true
      · rw [step_pathProjector E hc hb hp]; exact prob _ _ rfl ht rfl rfl rfl
      · simp only [step]; rw [if_pos hc, if_neg (fun h => hb h.1)]; exact same _ rfl rfl rfl rfl
    · simp only [step]; rw [if_neg hc]; exact h
  | addConfigValidation n =>
    refine ⟨?_, fun f hf => (by cases hf), fun f hf => (by cases hf)⟩
    simp only [step]
    by_cases hc : s.has .configValidation n = true
    · rw [if_pos hc]
      split
      · exact same _ rfl rfl rfl rfl
      · simp only [St.initConfigValidation, unitRes]
        split
        · exact same _ rfl rfl rfl rfl
        · split
          · exact same _ rfl rfl rfl rfl
          · rename_i i' p' hp'
            have hp'' : some (i, p) = some (i', p') := hp.symm.trans hp'
            cases hp''
            exact prob _ _ rfl ht rfl rfl rfl
    · rw [if_neg hc]; exact h
  | clearConfigValidations =>
    refine ⟨?_, fun f hf => (by cases hf), fun f hf => (by cases hf)⟩
    simp only [step, hp]; exact prob _ _ rfl ht rfl rfl rfl
  | addConstraint c =>
    refine ⟨?_, fun f hf => (by cases hf), fun f hf => (by cases hf)⟩
    simp only [step]
    split
    · split <;> exact same _ rfl rfl rfl rfl
    · exact h
    · exact h
  | resetConstraints =>
    refine ⟨?_, fun f hf => (by cases hf), fun f hf => (by cases hf)⟩
    simp only [step]
    split
    · exact prob _ { p with cset := s.sets.length, sm := { p.sm with cset := s.sets.length } } (by simp only [hp, Option.map_some]) ht rfl rfl rfl
    · exact h
  | addToProjector n =>
    refine ⟨?_, fun f hf => (by cases hf), fun f hf => (by cases hf)⟩
    simp only [step, St.addToProjector]
    split
    · exact h
    · split <;> exact same _ rfl rfl rfl rfl
  | maxIterPathPlanning n =>
    exact ⟨⟨i, p, { x with maxIter := n }, r, hp, by simp only [step, hx, Option.map_some], hi, hr, hrd, ht, h1, h2⟩, fun f hf => (by cases hf), fun f hf => (by cases hf)⟩
  | initDistance =>
    refine ⟨?_, fun f hf => (by cases hf), fun f hf => (by cases hf)⟩
    simp only [step, St.initDistance, hp, unitRes]
    split
    · exact prob _ _ rfl ht rfl rfl rfl
    · exact h
  | directPath a b v =>
    refine ⟨?_, fun f hf => (by cases hf), fun f hf => (by cases hf)⟩
    simp only [step, St.directPath]
    split
    · exact h
    · split
      · exact h
      · split
        · exact h
        · split
          · split
            · exact h
            · exact same _ rfl rfl rfl rfl
          · exact same _ rfl rfl rfl rfl
  | erasePath k => refine ⟨?_, fun f hf => (by cases hf), fun f hf => (by cases hf)⟩; simp only [step]; split <;> exact same _ rfl rfl rfl rfl
  | pbAddGoal q =>
    refine ⟨?_, fun f hf => (by cases hf), fun f hf => (by cases hf)⟩
    simp only [step, hp]
    refine prob _ _ rfl ?_ rfl rfl rfl
    simp only
    split <;> rfl
  | pbSteeringMethod n => refine ⟨?_, fun f hf => (by cases hf), fun f hf => (by cases hf)⟩; simp only [step, hp]; exact prob _ _ rfl ht rfl rfl rfl
  | pbShooter n => refine ⟨?_, fun f hf => (by cases hf), fun f hf => (by cases hf)⟩; simp only [step, hp]; exact prob _ _ rfl ht rfl rfl rfl
  | _ => exact ⟨same _ rfl rfl rfl rfl, fun f hf => (by cases hf), fun f hf => (by cases hf)⟩

theorem anyFound_cons (d : Bool) (o : Op Q P C K) (l : List (Op Q P C K)) : anyFound d (o :: l) = anyFound (anyFound d [o]) l := by cases o <;> rfl

theorem run_stepping {g : Bool} (h : Stepping s g) (l : List (Op Q P C K)) (hl : ∀ o ∈ l, o.resets = false) : Stepping (run E s l).1 (anyFound g l) := by
  induction l generalizing s g with
  | nil => exact h
  | cons o l ih =>
    rw [anyFound_cons]
    exact ih (step_stepping h o (hl o (List.mem_cons_self ..))).1 fun o' ho => hl o' (List.mem_cons_of_mem _ ho)

theorem prepare_stepping (h : Inv s) (ht : s.target.isTask = false) (f : Bool) : Stepping (s.prepare f).1 f := by
  obtain ⟨i, p, hg⟩ := h.good
  obtain ⟨r, hr, hl⟩ := h.road
  unfold St.prepare
  rw [initProblem_eq h hg.problem hr, if_neg (by rw [ht]; intro h; cases h.2)]
  simp only [ht]
  refine ⟨i, _, _, _, rfl, rfl, rfl, hr, by rw [List.getElem?_modify_eq, List.getElem?_eq_getElem hl]; rfl, rfl, rfl, ?_⟩
  simp [tag, Target.isTask]

/-- C101: with goal configurations, after `prepareSolveStepByStep`, and as long as neither the robot, the problem nor the roadmap are reset and no other resolution is started,
`executeOneStep` answers whether a goal was reached at this step or before, and `finishSolveStepByStep` gives a path if a goal was reached and throws `std::logic_error` otherwise,
whatever other calls are made in between.  Partial: see `C101_reset_counterexample`, `C101_problem_counterexample`, `C101_task_counterexample`. -/
theorem C101_steps_partial (a b c : K) (l : List (Op Q P C K)) (hr : Op.robot ∈ l) (hg : taskOf c 20 none (run E (St.start a b c) l).2 = none)
    (f : Bool) (m : List (Op Q P C K)) (hm : ∀ o ∈ m, o.resets = false) (f' : Bool) (path : P) :
    (step E (run E (step E (run E (St.start a b c) l).1 (.prepare f)).1 m).1 (.oneStep f')).2 = .ok (.bool (anyFound f m || f')) ∧
    (step E (run E (step E (run E (St.start a b c) l).1 (.prepare f)).1 m).1 (.finish path)).2 = if anyFound f m = true then .ok .unit else .error .logic := by
  have hi := run_robot (E := E) (start_names a b c) l hr
  have ht := run_task (E := E) (s := St.start a b c) l
  have h := run_stepping (E := E) (prepare_stepping hi (by rw [Target.isTask_eq, ht]; exact congrArg Option.isSome hg) f) m hm
  exact ⟨(step_stepping h (.oneStep f') rfl).2.1 f' rfl, (step_stepping h (.finish path) rfl).2.2 path rfl⟩

/-! ## Examples and counterexamples -/

namespace Ex

/-- Configurations are numbers, paths lists of numbers: the steering method fails between equal configurations; the projector fails on `[1, 2]` without path, on `[1, 3]` with the path
`[1]`; paths that go through 9 are valid up to it. -/
def env : Env Nat (List Nat) Nat Nat where
  steer _ _ a b := if a = b then none else some [a, b]
  project _ p := if p = [1, 2] then (false, none) else if p = [1, 3] then (false, some [1]) else (true, some (p ++ [0]))
  validate _ p := (!p.contains 9, p.takeWhile (· ≠ 9), p.contains 9)
  optimize n p := if n = "SimpleShortcut" then some (p.take 2) else if n = "RandomShortcut" then some (p ++ [7]) else none

abbrev O := Op Nat (List Nat) Nat Nat

def go (l : List O) : St Nat (List Nat) Nat Nat × List (O × Res) := run env (St.start 1 2 3) l

/-- Outcome of the last call. -/
def res (l : List O) (o : O) : Res := (step env (go l).1 o).2

def pb (l : List O) : Option (Pb Nat Nat Nat) := (go l).1.problem.map (·.2)

def history : List O := [.plannerType "BiRRTPlanner", .plannerType "unknown", .robot, .steeringMethodType "Dubins", .pathValidationType "Progressive" 5, .pathProjectorType "Dichotomy" 6,
  .initConfig 1, .addGoalConfig 4, .resetGoalConfigs, .addGoalConfig 2, .addPathOptimizer "RandomShortcut", .addPathOptimizer "SimpleShortcut", .timeOut (some 9), .pbShooter "Gaussian",
  .addNumericalConstraint "c", .addToProjector "c", .addConstraint (.other 8), .errorThreshold 33]

example : Op.robot ∈ history := by simp [history]

-- C97: components of the history, after `prepare`
example : (pb (history ++ [.prepare false])).map (fun p => (p.shooter, p.sm.name, p.pv)) = some ("Uniform", "Dubins", "Progressive", 5) := by decide +kernel
example : (pb (history ++ [.prepare false])).map (·.cvs) = some ["CollisionValidation", "JointBoundValidation"] := by decide +kernel
example : (pb (history ++ [.prepare false])).map (fun p => p.proj.map fun f => (f.name, f.tol, f.steer)) = some (some ("Dichotomy", 6, "Dubins")) := by decide +kernel
example : (go (history ++ [.prepare false])).1.planner.map (fun x => (x.name, x.timeOut)) = some ("BiRRTPlanner", some 9) := by decide +kernel
example : lastOk selPlanner "DiffusingPlanner" (go history).2 = "BiRRTPlanner" := by decide +kernel

-- C98
example : goalsOf [] (go history).2 = [2] := by decide +kernel
example : res history (.prepare true) = .ok (.bool true) := by decide +kernel
example : res (history ++ [.setGoalConstraints ["c"]]) (.prepare true) = .error .logic := by decide +kernel
example : res (history ++ [.setGoalConstraints ["c"]]) (.solve (some [1, 2])) = .error .logic := by decide +kernel
example : res (history ++ [.setGoalConstraints ["c"], .resetGoalConstraints]) (.prepare true) = .ok (.bool true) := by decide +kernel
example : taskOf 3 20 none (go (history ++ [.setGoalConstraints ["c"], .errorThreshold 55])).2 = some (33, 20, ["c"]) := by decide +kernel

-- C99
example : (go history).1.cur.map (fun c => (c.cons, c.proj)) = some ([8], some (33, 20, ["c"])) := by decide +kernel
example : (go (history ++ [.resetConstraints])).1.cur.map (fun c => (c.cons, c.proj)) = some ([], none) := by decide +kernel

-- C100
example : (go (history ++ [.solve (some [1, 2, 3])])).1.paths = [[1, 2, 3], [1, 2, 3, 7], [1, 2]] := by decide +kernel
example : (go (history ++ [.addPathOptimizer "PartialShortcut", .solve (some [1, 2, 3]), .addPath [5], .erasePath 0])).1.paths = [[1, 2, 3, 7], [1, 2], [5]] := by decide +kernel
example : res (history ++ [.addPathOptimizer "PartialShortcut"]) (.solve (some [1, 2, 3])) = .error .planning := by decide +kernel
example : res history (.directPath 4 5 true) = .ok (.direct true (some 0) true) := by decide +kernel
example : res history (.directPath 4 9 true) = .ok (.direct false (some 0) false) := by decide +kernel
example : res history (.directPath 4 4 true) = .ok (.direct false none false) := by decide +kernel

-- C101
example : res (history ++ [.prepare false, .oneStep false, .directPath 4 5 true]) (.oneStep true) = .ok (.bool true) := by decide +kernel
example : res (history ++ [.prepare false, .oneStep false, .timeOut none]) (.finish [1]) = .error .logic := by decide +kernel
example : res (history ++ [.prepare false, .oneStep true, .oneStep false]) (.finish [1]) = .ok .unit := by decide +kernel
example : anyFound false ([.oneStep true, .oneStep false] : List O) = true := rfl

end Ex

/-- C97: the distance that is selected is not used: problem-solver.cc:305-307.  The default name is not the one of a builder, so that `initDistance` throws. -/
theorem C97_distance_counterexample :
    (Ex.res [.robot] (.distanceType "ReedsShepp") = .ok .unit) ∧
    (Ex.pb [.robot, .distanceType "ReedsShepp", .resetProblem, .prepare false]).map (·.dist) = some "Weighed" ∧
    Ex.res [.robot] .initDistance = .error .invalid := by
  refine ⟨?_, ?_, ?_⟩ <;> decide +kernel

/-- C97: a steering method, a shooter and a path projector selected before the robot is given (or before the problem is reset) are not those of the problem until `solve` or
`prepareSolveStepByStep`; `directPath` uses the default ones. -/
theorem C97_reset_counterexample :
    (Ex.pb [.steeringMethodType "Dubins", .shooterType "Gaussian", .pathProjectorType "Progressive" 1, .robot]).map (fun p => (p.sm.name, p.shooter, p.proj.isSome)) =
      some ("Straight", "Uniform", false) ∧
    (Ex.pb [.steeringMethodType "Dubins", .shooterType "Gaussian", .pathProjectorType "Progressive" 1, .robot, .prepare false]).map (fun p => (p.sm.name, p.shooter, p.proj.isSome)) =
      some ("Dubins", "Gaussian", true) := by
  refine ⟨?_, ?_⟩ <;> decide +kernel

/-- C97: before the robot is given, `addConfigValidation` throws, but the validation is selected. -/
theorem C97_validation_counterexample :
    Ex.res [.clearConfigValidations] (.addConfigValidation "CollisionValidation") = .error .runtime ∧
    (Ex.go [.clearConfigValidations, .addConfigValidation "CollisionValidation"]).1.cvTypes = ["CollisionValidation"] := by
  refine ⟨?_, ?_⟩ <;> decide +kernel

/-- C97: goals, steering method and shooter set on the problem itself are lost when `solve` is called. -/
theorem C97_problem_counterexample :
    (Ex.pb [.robot, .pbSteeringMethod "Dubins", .pbShooter "Gaussian", .pbAddGoal 4]).map (fun p => (p.sm.name, p.shooter, match p.target with
      | .goals l => l
      | _ => [])) = some ("Dubins", "Gaussian", [4]) ∧
    (Ex.pb [.robot, .pbSteeringMethod "Dubins", .pbShooter "Gaussian", .pbAddGoal 4, .solve (some [1])]).map (fun p => (p.sm.name, p.shooter, match p.target with
      | .goals l => l
      | _ => [])) = some ("Straight", "Uniform", []) := by
  refine ⟨?_, ?_⟩ <;> decide +kernel

/-- C99: a config projector added by `addConstraint` keeps its own settings. -/
theorem C99_settings_counterexample : (Ex.go [.robot, .errorThreshold 5, .addConstraint (.projector 7 8)]).1.cur.map (·.proj) = some (some (7, 8, [])) := by decide +kernel

/-- C99: `addNumericalConstraintToConfigProjector` throws for an unknown name, but has created a config projector: another one is then refused. -/
theorem C99_unknown_counterexample :
    Ex.res [.robot] (.addToProjector "x") = .error .invalid ∧ Ex.res [.robot] (.addConstraint (.projector 7 8)) = .ok .unit ∧
    Ex.res [.robot, .addToProjector "x"] (.addConstraint (.projector 7 8)) = .error .runtime := by
  refine ⟨?_, ?_, ?_⟩ <;> decide +kernel

/-- C99: the path projector `RecursiveHermite` keeps the constraints of the time it was created. -/
theorem C99_hermite_counterexample :
    (Ex.pb [.robot, .pathProjectorType "RecursiveHermite" 1, .addConstraint (.other 5)]).map (fun p => p.proj.map fun f => f.cons.map (·.cons)) = some (some (some [])) ∧
    (Ex.go [.robot, .pathProjectorType "RecursiveHermite" 1, .addConstraint (.other 5)]).1.cur.map (·.cons) = some [5] := by
  refine ⟨?_, ?_⟩ <;> decide +kernel

/-- C100: `directPath` with validation when the projector gives no path: null pointer; when the projector fails with a valid path: the answer is no, with an empty report. -/
theorem C100_direct_counterexample :
    Ex.res [.robot, .pathProjectorType "Progressive" 1] (.directPath 1 2 true) = .error .ub ∧
    Ex.res [.robot, .pathProjectorType "Progressive" 1] (.directPath 1 3 true) = .ok (.direct false (some 0) true) := by
  refine ⟨?_, ?_⟩ <;> decide +kernel

/-- C101: after `resetRoadmap` (also called when a collision obstacle is added), `executeOneStep` reads the initial node of the new roadmap, which has none. -/
theorem C101_reset_counterexample :
    Ex.res [.robot, .addGoalConfig 2, .prepare false] (.oneStep true) = .ok (.bool true) ∧
    Ex.res [.robot, .addGoalConfig 2, .prepare false, .resetRoadmap] (.oneStep true) = .error .ub := by
  refine ⟨?_, ?_⟩ <;> decide +kernel

/-- C101: after `resetProblem`, the problem of the planner does not exist any more. -/
theorem C101_problem_counterexample : Ex.res [.robot, .addGoalConfig 2, .prepare false, .resetProblem] (.oneStep true) = .error .ub := by decide +kernel

/-- C101: with goal constraints, the answer is no even if a goal is reached, and there is never a path. -/
theorem C101_task_counterexample :
    Ex.res [.robot, .setGoalConstraints ["c"]] (.prepare true) = .ok (.bool false) ∧
    Ex.res [.robot, .setGoalConstraints ["c"], .prepare true] (.oneStep true) = .ok (.bool false) ∧
    Ex.res [.robot, .setGoalConstraints ["c"], .prepare true, .oneStep true] (.finish [1]) = .error .logic := by
  refine ⟨?_, ?_, ?_⟩ <;> decide +kernel

end Verif.Session
