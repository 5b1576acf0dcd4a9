import Mathlib.Logic.Relation
import Mathlib.Data.List.Basic
set_option linter.unusedSectionVars false

/-!
# Interrupting a resolution from another thread (C136)

`ProblemSolver::solve` in one thread, `ProblemSolver::interrupt` in another one, interleaved in any way.  The flags `interrupt_` (path-planner.hh:109,
path-optimizer.hh:65) are plain booleans: they are read and written here one at a time (sequential consistency), as if they were atomic.  What a step of the planner
or an iteration of an optimizer does is arbitrary: the model keeps its end and counts the units of work begun.
-/
namespace Verif.Interrupt

/-- Where the thread that solves is. -/
inductive Pc where
  /-- no resolution -/
  | idle
  /-- `initProblem`, before the planner is made: problem-solver.cc:633-641 -/
  | init
  /-- the planner is made, `PathPlanner::solve` has not begun: problem-solver.cc:641-744 -/
  | created
  /-- `startSolve` and `tryConnectInitAndGoals`, or `oneStep`: path-planner.cc:112-122, 159-168 -/
  | work
  /-- `if (interrupt_) throw`: path-planner.cc:123, 170; `solved` is the local variable -/
  | test (solved : Bool)
  /-- limits: path-planner.cc:124-158 -/
  | limits
  /-- `computePath`, `finishSolve` and the path is stored: path-planner.cc:172-173, problem-solver.cc:745 -/
  | planned
  /-- `pathOptimizers_.clear ()`: problem-solver.cc:681 -/
  | clear
  /-- the optimizers are made: problem-solver.cc:682-686 -/
  | create
  /-- optimizer `i` begins: problem-solver.cc:353-355 -/
  | begin (i : Nat)
  /-- `shouldStop ()`: random-shortcut.cc:97, spline-gradient-based.cc:501 -/
  | check (i : Nat)
  /-- an iteration -/
  | iter (i : Nat)
  /-- an iteration of an optimizer that does not call `shouldStop` -/
  | blind (i : Nat)
  /-- `solve` has returned (`true`) or thrown -/
  | ended (ok : Bool)
deriving DecidableEq

/-- Where the thread that interrupts is: problem-solver.cc:816-822. -/
inductive Usr where
  | idle
  | begin
  | loop (j : Nat)
deriving DecidableEq

/-- `planner`: flag of the planner, if there is one; `opts`: flags of `pathOptimizers_`; `work`: number of units of work begun so far (ghost). -/
structure Sys where
  pc : Pc
  usr : Usr
  planner : Option Bool
  opts : List Bool
  work : Nat
deriving DecidableEq

def Sys.start : Sys := ⟨.idle, .idle, none, [], 0⟩

/-- A step of the thread that solves, once `solve` is called.  `kinds`: for each selected optimizer, whether it calls `monitorExecution` and `shouldStop`
(RandomShortcut and the gradient based optimizers do). -/
inductive Solve (kinds : List Bool) : Sys → Sys → Prop
  | init (s : Sys) : s.pc = .init → Solve kinds s { s with pc := .created, planner := some false }
  | refused (s : Sys) : s.pc = .init → Solve kinds s { s with pc := .ended false }
  | refused' (s : Sys) : s.pc = .created → Solve kinds s { s with pc := .ended false }
  /-- path-planner.cc:108 -/
  | reset (s : Sys) : s.pc = .created → Solve kinds s { s with pc := .work, planner := some false, work := s.work + 1 }
  | worked (s : Sys) (b : Bool) : s.pc = .work → Solve kinds s { s with pc := .test b }
  | raised (s : Sys) : s.pc = .work → Solve kinds s { s with pc := .ended false }
  | interrupted (s : Sys) (b : Bool) : s.pc = .test b → s.planner = some true → Solve kinds s { s with pc := .ended false }
  | solved (s : Sys) : s.pc = .test true → s.planner ≠ some true → Solve kinds s { s with pc := .planned }
  | unsolved (s : Sys) : s.pc = .test false → s.planner ≠ some true → Solve kinds s { s with pc := .limits }
  | limit (s : Sys) : s.pc = .limits → Solve kinds s { s with pc := .ended false }
  | limitSolved (s : Sys) : s.pc = .limits → Solve kinds s { s with pc := .planned }
  | step (s : Sys) : s.pc = .limits → Solve kinds s { s with pc := .work, work := s.work + 1 }
  | noPath (s : Sys) : s.pc = .planned → Solve kinds s { s with pc := .ended false }
  | path (s : Sys) : s.pc = .planned → Solve kinds s { s with pc := .clear }
  | clear (s : Sys) : s.pc = .clear → Solve kinds s { s with pc := .create, opts := [] }
  | push (s : Sys) : s.pc = .create → s.opts.length < kinds.length → Solve kinds s { s with opts := s.opts ++ [false] }
  | pushed (s : Sys) : s.pc = .create → ¬ s.opts.length < kinds.length → Solve kinds s { s with pc := .begin 0 }
  | noBuilder (s : Sys) : s.pc = .create → Solve kinds s { s with pc := .ended false }
  | over (s : Sys) (i : Nat) : s.pc = .begin i → kinds[i]? = none → Solve kinds s { s with pc := .ended true }
  /-- `monitorExecution`: path-optimizer.cc:59-64 -/
  | monitor (s : Sys) (i : Nat) : s.pc = .begin i → kinds[i]? = some true → Solve kinds s { s with pc := .check i, opts := s.opts.set i false }
  | blind (s : Sys) (i : Nat) : s.pc = .begin i → kinds[i]? = some false → Solve kinds s { s with pc := .blind i, work := s.work + 1 }
  | stop (s : Sys) (i : Nat) : s.pc = .check i → s.opts[i]? = some true → Solve kinds s { s with pc := .begin (i + 1) }
  | finished (s : Sys) (i : Nat) : s.pc = .check i → s.opts[i]? ≠ some true → Solve kinds s { s with pc := .begin (i + 1) }
  | iterate (s : Sys) (i : Nat) : s.pc = .check i → s.opts[i]? ≠ some true → Solve kinds s { s with pc := .iter i, work := s.work + 1 }
  | iterated (s : Sys) (i : Nat) : s.pc = .iter i → Solve kinds s { s with pc := .check i }
  | iterRaised (s : Sys) (i : Nat) : s.pc = .iter i → Solve kinds s { s with pc := .ended false }
  | blindMore (s : Sys) (i : Nat) : s.pc = .blind i → Solve kinds s { s with work := s.work + 1 }
  | blindEnd (s : Sys) (i : Nat) : s.pc = .blind i → Solve kinds s { s with pc := .begin (i + 1) }
  | blindRaised (s : Sys) (i : Nat) : s.pc = .blind i → Solve kinds s { s with pc := .ended false }

/-- A step of the thread that interrupts: problem-solver.cc:816-822, path-planner.cc:176, path-optimizer.hh:55. -/
inductive User : Sys → Sys → Prop
  | call (s : Sys) : s.usr = .idle → User s { s with usr := .begin }
  | planner (s : Sys) : s.usr = .begin → User s { s with usr := .loop 0, planner := s.planner.map fun _ => true }
  | opt (s : Sys) (j : Nat) : s.usr = .loop j → j < s.opts.length → User s { s with usr := .loop (j + 1), opts := s.opts.set j true }
  | done (s : Sys) (j : Nat) : s.usr = .loop j → ¬ j < s.opts.length → User s { s with usr := .idle }

/-- `solve` is called. -/
inductive Call : Sys → Sys → Prop
  | mk (s : Sys) : s.pc = .idle ∨ (∃ ok, s.pc = .ended ok) → Call s { s with pc := .init }

/-- Any schedule within one resolution, with the number of steps of the thread that solves. -/
inductive Run (kinds : List Bool) : Sys → Nat → Sys → Prop
  | nil (s : Sys) : Run kinds s 0 s
  | solve {s t u : Sys} {n : Nat} : Run kinds s n t → Solve kinds t u → Run kinds s (n + 1) u
  | user {s t u : Sys} {n : Nat} : Run kinds s n t → User t u → Run kinds s n u

/-- Any schedule. -/
inductive Reach (kinds : List Bool) : Sys → Prop
  | start : Reach kinds Sys.start
  | call {s t : Sys} : Reach kinds s → Call s t → Reach kinds t
  | solve {s t : Sys} : Reach kinds s → Solve kinds s t → Reach kinds t
  | user {s t : Sys} : Reach kinds s → User s t → Reach kinds t

theorem Reach.run {kinds : List Bool} {s t : Sys} {n : Nat} (h : Reach kinds s) (r : Run kinds s n t) : Reach kinds t := by
  induction r with
  | nil => exact h
  | solve _ hs ih => exact .solve ih hs
  | user _ hs ih => exact .user ih hs

theorem Run.trans {kinds : List Bool} {s t u : Sys} {n k : Nat} (a : Run kinds s n t) (b : Run kinds t k u) : Run kinds s (n + k) u := by
  induction b with
  | nil => exact a
  | solve _ hs ih => exact .solve ih hs
  | user _ hs ih => exact .user ih hs

theorem Run.one {kinds : List Bool} {s t : Sys} (h : Solve kinds s t) : Run kinds s 1 t := .solve (.nil s) h
theorem Run.usr1 {kinds : List Bool} {s t : Sys} (h : User s t) : Run kinds s 0 t := .user (.nil s) h

/-! ## Interruptions that stop the resolution -/

/-- C136 (partial): if the flag of the planner is raised while the planner works, or before it reads the flag after this work, then whatever the schedule is afterwards,
the resolution begins no other unit of work, has thrown after two steps of its thread at most, and returns no path.  Partial: the flag must be raised
after `PathPlanner::solve` has begun and not during the test of limits (`C136_lost_counterexample`, `C136_limits_counterexample`). -/
theorem C136_planning_partial {kinds : List Bool} {s t : Sys} {n : Nat} (hf : s.planner = some true) (hp : s.pc = .work ∨ ∃ b, s.pc = .test b) (h : Run kinds s n t) :
    t.work = s.work ∧ n ≤ 2 ∧ (t.pc = .work ∨ (∃ b, t.pc = .test b) ∨ t.pc = .ended false) ∧ (n = 2 → t.pc = .ended false) := by
  have key : t.work = s.work ∧ ((t.planner = some true ∧ t.pc = .work ∧ n = 0) ∨ (t.planner = some true ∧ (∃ b, t.pc = .test b) ∧ n ≤ 1) ∨ (t.pc = .ended false ∧ n ≤ 2)) := by
    induction h with
    | nil =>
      refine ⟨rfl, ?_⟩
      rcases hp with hp | hp
      · exact Or.inl ⟨hf, hp, rfl⟩
      · exact Or.inr (Or.inl ⟨hf, hp, by omega⟩)
    | solve _ hs ih =>
      obtain ⟨hw, hc⟩ := ih
      cases hs <;> simp_all
    | user _ hs ih =>
      obtain ⟨hw, hc⟩ := ih
      cases hs <;> simp_all
      tauto
  obtain ⟨hw, hc⟩ := key
  refine ⟨hw, ?_⟩
  rcases hc with ⟨_, h1, h2⟩ | ⟨_, h1, h2⟩ | ⟨h1, h2⟩
  · exact ⟨by omega, Or.inl h1, by omega⟩
  · exact ⟨by omega, Or.inr (Or.inl h1), by omega⟩
  · exact ⟨h2, Or.inr (Or.inr h1), fun _ => h1⟩

/-- The flag stays up while the optimizer runs. -/
theorem set_true {l : List Bool} {i j : Nat} (h : l[i]? = some true) : (l.set j true)[i]? = some true := by
  rw [List.getElem?_set]
  split
  · subst_vars
    obtain ⟨h1, _⟩ := List.getElem?_eq_some_iff.1 h
    simp [h1]
  · exact h

theorem step_iter {kinds : List Bool} {t u : Sys} {i : Nat} (h : Solve kinds t u) (hp : t.pc = .iter i) : u = { t with pc := .check i } ∨ u.pc = .ended false ∧ u.work = t.work := by
  cases h <;> simp_all

theorem step_check {kinds : List Bool} {t u : Sys} {i : Nat} (h : Solve kinds t u) (hp : t.pc = .check i) (ho : t.opts[i]? = some true) : u = { t with pc := .begin (i + 1) } := by
  cases h <;> simp_all

/-- C136 (partial): if the flag of an optimizer that reads it is raised while this optimizer runs, then whatever the schedule is afterwards, this optimizer begins no other iteration and
leaves after two steps of its thread at most: the resolution has thrown, or is about to run the next optimizer (`C136_next_counterexample`). -/
theorem C136_optimizer_partial {kinds : List Bool} {s t : Sys} {i n : Nat} (hf : s.opts[i]? = some true) (hp : s.pc = .check i ∨ s.pc = .iter i) (h : Run kinds s n t) :
    (t.work = s.work ∧ t.opts[i]? = some true ∧ (t.pc = .iter i ∧ n = 0 ∨ t.pc = .check i ∧ n ≤ 1)) ∨
    ∃ u k m, Run kinds s k u ∧ Run kinds u m t ∧ n = k + m ∧ k ≤ 2 ∧ u.work = s.work ∧ (u.pc = .begin (i + 1) ∨ u.pc = .ended false) := by
  induction h with
  | nil =>
    left
    refine ⟨rfl, hf, ?_⟩
    rcases hp with hp | hp
    · exact Or.inr ⟨hp, by omega⟩
    · exact Or.inl ⟨hp, rfl⟩
  | @solve t u n hr hs ih =>
    rcases ih with ⟨hw, ho, hc⟩ | ⟨v, k, m, h1, h2, h3, h4⟩
    · rcases hc with ⟨hc, hn⟩ | ⟨hc, hn⟩
      · rcases step_iter hs hc with e | ⟨e, e'⟩
        · exact Or.inl (by subst e; exact ⟨hw, ho, Or.inr ⟨rfl, by omega⟩⟩)
        · exact Or.inr ⟨u, n + 1, 0, hr.solve hs, .nil _, rfl, by omega, e'.trans hw, Or.inr e⟩
      · have e := step_check hs hc ho
        exact Or.inr ⟨u, n + 1, 0, hr.solve hs, .nil _, rfl, by omega, by rw [e]; exact hw, Or.inl (by rw [e])⟩
    · exact Or.inr ⟨v, k, m + 1, h1, h2.solve hs, by omega, h4⟩
  | @user t u n hr hs ih =>
    rcases ih with ⟨hw, ho, hc⟩ | ⟨v, k, m, h1, h2, h3, h4⟩
    · left
      cases hs
      · exact ⟨hw, ho, hc⟩
      · exact ⟨hw, ho, hc⟩
      · exact ⟨hw, set_true ho, hc⟩
      · exact ⟨hw, ho, hc⟩
    · exact Or.inr ⟨v, k, m, h1, h2.user hs, h3, h4⟩

/-- A resolution that is over, or that runs an optimizer past the last one. -/
theorem run_over {kinds : List Bool} {s t : Sys} {n : Nat} (hp : s.pc = .begin kinds.length ∨ (∃ ok, s.pc = .ended ok)) (h : Run kinds s n t) :
    t.work = s.work ∧ n ≤ 1 ∧ (n = 1 → t.pc = .ended true) ∧ (n = 0 → t.pc = s.pc) := by
  have key : t.work = s.work ∧ (t.pc = s.pc ∧ n = 0 ∨ t.pc = .ended true ∧ n = 1) := by
    induction h with
    | nil => exact ⟨rfl, Or.inl ⟨rfl, rfl⟩⟩
    | solve _ hs ih =>
      obtain ⟨hw, hc⟩ := ih
      cases hs <;> rcases hp with hp | ⟨ok, hp⟩ <;> simp_all
    | user _ hs ih =>
      obtain ⟨hw, hc⟩ := ih
      cases hs <;> simp_all
  obtain ⟨hw, hc⟩ := key
  rcases hc with ⟨h1, h2⟩ | ⟨h1, h2⟩
  · exact ⟨hw, by omega, by omega, fun _ => h1⟩
  · exact ⟨hw, by omega, fun _ => h1, by omega⟩

/-- C136: if the flag of the last optimizer is raised while it runs and it reads its flag, the resolution begins no other unit of work, whatever the schedule is, and has ended after
three steps of its thread at most. -/
theorem C136_last_partial {kinds : List Bool} {s t : Sys} {i n : Nat} (hl : i + 1 = kinds.length) (hf : s.opts[i]? = some true) (hp : s.pc = .check i ∨ s.pc = .iter i) (h : Run kinds s n t) :
    t.work = s.work ∧ n ≤ 3 ∧ (n = 3 → t.pc = .ended true) := by
  rcases C136_optimizer_partial hf hp h with ⟨h1, _, h3⟩ | ⟨u, k, m, h1, h2, h3, h4, h5, h6⟩
  · exact ⟨h1, by omega, by omega⟩
  · have := run_over (kinds := kinds) (by rw [← hl]; rcases h6 with h6 | h6
                                          · exact Or.inl h6
                                          · exact Or.inr ⟨_, h6⟩) h2
    exact ⟨this.1.trans h5, by omega, fun hn => this.2.2.1 (by omega)⟩

/-- C136: a call of `interrupt` that begins while the planner works raises its flag, whatever the schedule is: once the call has gone past the planner the flag is up, unless the planner has
left this unit of work in between. -/
theorem C136_call_planner {kinds : List Bool} {s t : Sys} {n : Nat} (hu : s.usr = .begin) (hp : s.pc = .work ∨ ∃ b, s.pc = .test b) (hf : s.planner.isSome = true) (h : Run kinds s n t) :
    (t.usr ≠ .begin → t.planner = some true) ∨ ∃ u k m, Run kinds s k u ∧ Run kinds u m t ∧ n = k + m ∧ ¬ (u.pc = .work ∨ ∃ b, u.pc = .test b) := by
  suffices h' : ((t.pc = .work ∨ ∃ b, t.pc = .test b) ∧ t.planner.isSome = true ∧ (t.usr ≠ .begin → t.planner = some true)) ∨
      ∃ u k m, Run kinds s k u ∧ Run kinds u m t ∧ n = k + m ∧ ¬ (u.pc = .work ∨ ∃ b, u.pc = .test b) from h'.imp_left fun h => h.2.2
  induction h with
  | nil => exact Or.inl ⟨hp, hf, fun h => absurd hu h⟩
  | @solve t u n hr hs ih =>
    rcases ih with ⟨h1, h2, h3⟩ | ⟨v, k, m, h1, h2, h3, h4⟩
    · by_cases hc : u.pc = .work ∨ ∃ b, u.pc = .test b
      · left
        refine ⟨hc, ?_⟩
        cases hs <;> simp_all
      · exact Or.inr ⟨u, n + 1, 0, hr.solve hs, .nil _, rfl, hc⟩
    · exact Or.inr ⟨v, k, m + 1, h1, h2.solve hs, by omega, h4⟩
  | @user t u n hr hs ih =>
    rcases ih with ⟨h1, h2, h3⟩ | ⟨v, k, m, h1, h2, h3, h4⟩
    · left
      cases hs with
      | call hq => exact ⟨h1, h2, fun _ => h3 (by simp [hq])⟩
      | planner hq =>
        refine ⟨h1, by simpa using h2, fun _ => ?_⟩
        obtain ⟨b, hb⟩ := Option.isSome_iff_exists.1 h2
        simp [hb]
      | opt j hq => exact ⟨h1, h2, fun _ => h3 (by simp [hq])⟩
      | done j hq => exact ⟨h1, h2, fun _ => h3 (by simp [hq])⟩
    · exact Or.inr ⟨v, k, m, h1, h2.user hs, h3, h4⟩

/-- C136: a call of `interrupt` that begins while an optimizer runs raises its flag, whatever the schedule is: once the call has returned the flag is up, unless the optimizer has ended in between. -/
theorem C136_call_optimizer {kinds : List Bool} {s t : Sys} {i n : Nat} (hu : s.usr = .begin) (hp : s.pc = .check i ∨ s.pc = .iter i) (hl : i < s.opts.length) (h : Run kinds s n t) :
    (t.usr = .idle → t.opts[i]? = some true) ∨ ∃ u k m, Run kinds s k u ∧ Run kinds u m t ∧ n = k + m ∧ ¬ (u.pc = .check i ∨ u.pc = .iter i) := by
  suffices h' : ((t.pc = .check i ∨ t.pc = .iter i) ∧ i < t.opts.length ∧ (t.opts[i]? = some true ∨ t.usr = .begin ∨ ∃ j, t.usr = .loop j ∧ j ≤ i)) ∨
      ∃ u k m, Run kinds s k u ∧ Run kinds u m t ∧ n = k + m ∧ ¬ (u.pc = .check i ∨ u.pc = .iter i) from h'.imp_left fun h hi => by
    rcases h.2.2 with h | h | ⟨j, h, _⟩
    · exact h
    · rw [hi] at h; cases h
    · rw [hi] at h; cases h
  induction h with
  | nil => exact Or.inl ⟨hp, hl, Or.inr (Or.inl hu)⟩
  | @solve t u n hr hs ih =>
    rcases ih with ⟨h1, h2, h3⟩ | ⟨v, k, m, h1, h2, h3, h4⟩
    · by_cases hc : u.pc = .check i ∨ u.pc = .iter i
      · left
        refine ⟨hc, ?_⟩
        cases hs <;> simp_all
      · exact Or.inr ⟨u, n + 1, 0, hr.solve hs, .nil _, rfl, hc⟩
    · exact Or.inr ⟨v, k, m + 1, h1, h2.solve hs, by omega, h4⟩
  | @user t u n hr hs ih =>
    rcases ih with ⟨h1, h2, h3⟩ | ⟨v, k, m, h1, h2, h3, h4⟩
    · left
      cases hs with
      | call hq =>
        refine ⟨h1, h2, ?_⟩
        rcases h3 with h | h | ⟨j, h, _⟩
        · exact Or.inl h
        · exact Or.inr (Or.inl rfl)
        · rw [hq] at h; cases h
      | planner hq => exact ⟨h1, h2, h3.imp id fun _ => Or.inr ⟨0, rfl, Nat.zero_le _⟩⟩
      | opt j hq hj =>
        refine ⟨h1, by simpa using h2, ?_⟩
        by_cases hji : j = i
        · subst hji
          exact Or.inl (by simp [h2])
        · rcases h3 with h | h | ⟨j', h, hle⟩
          · exact Or.inl (set_true h)
          · rw [hq] at h; cases h
          · rw [hq] at h
            obtain rfl : j = j' := by simpa using h
            exact Or.inr (Or.inr ⟨j + 1, rfl, by omega⟩)
      | done j hq hj =>
        refine ⟨h1, h2, ?_⟩
        rcases h3 with h | h | ⟨j', h, hle⟩
        · exact Or.inl h
        · rw [hq] at h; cases h
        · rw [hq] at h
          obtain rfl : j = j' := by simpa using h
          omega
    · exact Or.inr ⟨v, k, m, h1, h2.user hs, h3, h4⟩

/-! ## Interruptions that are over when the resolution begins -/

/-- Steps of the thread that solves. -/
inductive Alone (kinds : List Bool) : Sys → Sys → Prop
  | nil (s : Sys) : Alone kinds s s
  | cons {s t u : Sys} : Alone kinds s t → Solve kinds t u → Alone kinds s u

/-- Same resolution: same place, same work, same flags as far as the resolution will read them. -/
def Same (s t : Sys) : Prop :=
  s.pc = t.pc ∧ s.work = t.work ∧
  (s.planner = t.planner ∨ s.pc = .init ∨ s.pc = .created) ∧
  (s.opts = t.opts ∨ s.pc = .init ∨ s.pc = .created ∨ s.pc = .work ∨ (∃ b, s.pc = .test b) ∨ s.pc = .limits ∨ s.pc = .planned ∨ s.pc = .clear)

theorem same_step {kinds : List Bool} {s s' t : Sys} (h : Same s s' ∨ ((∃ ok, s.pc = .ended ok) ∧ s.pc = s'.pc ∧ s.work = s'.work)) (hs : Solve kinds s t) :
    ∃ t', Solve kinds s' t' ∧ (Same t t' ∨ ((∃ ok, t.pc = .ended ok) ∧ t.pc = t'.pc ∧ t.work = t'.work)) := by
  rcases h with h | ⟨⟨ok, h0⟩, h1, h2⟩
  · obtain ⟨h1, h2, h3, h4⟩ := h
    obtain ⟨pc', u', p', o', w'⟩ := s'
    change s.pc = pc' at h1
    subst h1
    simp only at h2 h3 h4
    cases hs with
    | init hp => exact ⟨_, .init _ hp, Or.inl ⟨rfl, h2, Or.inl rfl, by simp⟩⟩
    | refused hp => exact ⟨_, .refused _ hp, Or.inr ⟨⟨_, rfl⟩, rfl, h2⟩⟩
    | refused' hp => exact ⟨_, .refused' _ hp, Or.inr ⟨⟨_, rfl⟩, rfl, h2⟩⟩
    | reset hp => exact ⟨_, .reset _ hp, Or.inl ⟨rfl, by simp [h2], Or.inl rfl, by simp⟩⟩
    | worked b hp => exact ⟨_, .worked _ b hp, Or.inl ⟨rfl, h2, by simp_all, by simp⟩⟩
    | raised hp => exact ⟨_, .raised _ hp, Or.inr ⟨⟨_, rfl⟩, rfl, h2⟩⟩
    | interrupted b hp hf => exact ⟨_, .interrupted _ b hp (by simp_all), Or.inr ⟨⟨_, rfl⟩, rfl, h2⟩⟩
    | solved hp hf => exact ⟨_, .solved _ hp (by simp_all), Or.inl ⟨rfl, h2, by simp_all, by simp⟩⟩
    | unsolved hp hf => exact ⟨_, .unsolved _ hp (by simp_all), Or.inl ⟨rfl, h2, by simp_all, by simp⟩⟩
    | limit hp => exact ⟨_, .limit _ hp, Or.inr ⟨⟨_, rfl⟩, rfl, h2⟩⟩
    | limitSolved hp => exact ⟨_, .limitSolved _ hp, Or.inl ⟨rfl, h2, by simp_all, by simp⟩⟩
    | step hp => exact ⟨_, .step _ hp, Or.inl ⟨rfl, by simp [h2], by simp_all, by simp⟩⟩
    | noPath hp => exact ⟨_, .noPath _ hp, Or.inr ⟨⟨_, rfl⟩, rfl, h2⟩⟩
    | path hp => exact ⟨_, .path _ hp, Or.inl ⟨rfl, h2, by simp_all, by simp⟩⟩
    | clear hp => exact ⟨_, .clear _ hp, Or.inl ⟨rfl, h2, by simp_all, Or.inl rfl⟩⟩
    | push hp hl => exact ⟨_, .push _ hp (by simp_all), Or.inl ⟨rfl, h2, by simp_all, by simp_all⟩⟩
    | pushed hp hl => exact ⟨_, .pushed _ hp (by simp_all), Or.inl ⟨rfl, h2, by simp_all, by simp_all⟩⟩
    | noBuilder hp => exact ⟨_, .noBuilder _ hp, Or.inr ⟨⟨_, rfl⟩, rfl, h2⟩⟩
    | over i hp hk => exact ⟨_, .over _ i hp hk, Or.inr ⟨⟨_, rfl⟩, rfl, h2⟩⟩
    | monitor i hp hk => exact ⟨_, .monitor _ i hp hk, Or.inl ⟨rfl, h2, by simp_all, by simp_all⟩⟩
    | blind i hp hk => exact ⟨_, .blind _ i hp hk, Or.inl ⟨rfl, by simp [h2], by simp_all, by simp_all⟩⟩
    | stop i hp hf => exact ⟨_, .stop _ i hp (by simp_all), Or.inl ⟨rfl, h2, by simp_all, by simp_all⟩⟩
    | finished i hp hf => exact ⟨_, .finished _ i hp (by simp_all), Or.inl ⟨rfl, h2, by simp_all, by simp_all⟩⟩
    | iterate i hp hf => exact ⟨_, .iterate _ i hp (by simp_all), Or.inl ⟨rfl, by simp [h2], by simp_all, by simp_all⟩⟩
    | iterated i hp => exact ⟨_, .iterated _ i hp, Or.inl ⟨rfl, h2, by simp_all, by simp_all⟩⟩
    | iterRaised i hp => exact ⟨_, .iterRaised _ i hp, Or.inr ⟨⟨_, rfl⟩, rfl, h2⟩⟩
    | blindMore i hp => exact ⟨_, .blindMore _ i hp, Or.inl ⟨rfl, by simp [h2], by simp_all, by simp_all⟩⟩
    | blindEnd i hp => exact ⟨_, .blindEnd _ i hp, Or.inl ⟨rfl, h2, by simp_all, by simp_all⟩⟩
    | blindRaised i hp => exact ⟨_, .blindRaised _ i hp, Or.inr ⟨⟨_, rfl⟩, rfl, h2⟩⟩
  · cases hs <;> simp_all

/-- C136: what was interrupted before `solve` is called has no effect on the resolution: it does what it would have done if nobody had ever called `interrupt`. -/
theorem C136_fresh {kinds : List Bool} {s t : Sys} (planner : Option Bool) (opts : List Bool) (hp : s.pc = .init) (h : Alone kinds s t) :
    ∃ t', Alone kinds { s with planner := planner, opts := opts } t' ∧ t'.pc = t.pc ∧ t'.work = t.work := by
  suffices ∃ t', Alone kinds { s with planner := planner, opts := opts } t' ∧ (Same t t' ∨ ((∃ ok, t.pc = .ended ok) ∧ t.pc = t'.pc ∧ t.work = t'.work)) by
    obtain ⟨t', h1, h2⟩ := this
    rcases h2 with h2 | h2
    · exact ⟨t', h1, h2.1.symm, h2.2.1.symm⟩
    · exact ⟨t', h1, h2.2.1.symm, h2.2.2.symm⟩
  induction h with
  | nil => exact ⟨_, .nil _, Or.inl ⟨rfl, rfl, Or.inr (Or.inl hp), Or.inr (Or.inl hp)⟩⟩
  | cons _ hs ih =>
    obtain ⟨t', h1, h2⟩ := ih
    obtain ⟨u', h3, h4⟩ := same_step h2 hs
    exact ⟨u', h1.cons h3, h4⟩

/-! ## Interruptions that are lost -/

theorem iterate_n {kinds : List Bool} {s : Sys} {i : Nat} (hp : s.pc = .check i) (ho : s.opts[i]? ≠ some true) (n : Nat) :
    Run kinds s (2 * n) { s with work := s.work + n } := by
  induction n with
  | zero => exact .nil _
  | succ n ih =>
    have h1 := ih.solve (.iterate _ i hp ho)
    have h2 := h1.solve (.iterated _ i rfl)
    have : ({ s with pc := Pc.check i, work := s.work + n + 1 } : Sys) = { s with work := s.work + (n + 1) } := by rw [← hp]; rfl
    exact this ▸ h2

theorem plan_n {kinds : List Bool} {s : Sys} (hp : s.pc = .work) (ho : s.planner ≠ some true) (n : Nat) :
    Run kinds s (3 * n) { s with work := s.work + n } := by
  induction n with
  | zero => exact .nil _
  | succ n ih =>
    have h1 := ih.solve (.worked _ false hp)
    have h2 := h1.solve (.unsolved _ rfl ho)
    have h3 := h2.solve (.step _ rfl)
    have : ({ s with pc := Pc.work, work := s.work + n + 1 } : Sys) = { s with work := s.work + (n + 1) } := by rw [← hp]; rfl
    exact this ▸ h3

theorem blind_n {kinds : List Bool} {s : Sys} {i : Nat} (hp : s.pc = .blind i) (n : Nat) :
    Run kinds s n { s with work := s.work + n } := by
  induction n with
  | zero => exact .nil _
  | succ n ih => exact ih.solve (.blindMore _ i hp)

/-- `interrupt ()` called and returned while the other thread stays at the same place: it raises every flag there is. -/
def intr (s : Sys) : Sys := { s with planner := s.planner.map fun _ => true, opts := s.opts.map fun _ => true }

theorem intr_loop {kinds : List Bool} (pc : Pc) (pl : Option Bool) (w : Nat) (b a : List Bool) :
    Run kinds ⟨pc, .loop a.length, pl, a ++ b, w⟩ 0 ⟨pc, .idle, pl, a ++ b.map fun _ => true, w⟩ := by
  induction b generalizing a with
  | nil => exact Run.usr1 (.done _ a.length rfl (by simp))
  | cons x l ih =>
    have h1 : Run kinds ⟨pc, .loop a.length, pl, a ++ x :: l, w⟩ 0 _ := Run.usr1 (.opt _ a.length rfl (by simp))
    have h2 := ih (a ++ [true])
    have e : (a ++ x :: l).set a.length true = (a ++ [true]) ++ l := by simp
    rw [e] at h1
    have := h1.trans (k := 0) (u := ⟨pc, .idle, pl, a ++ (x :: l).map fun _ => true, w⟩) (by simpa using h2)
    exact this

theorem run_intr {kinds : List Bool} (s : Sys) (hu : s.usr = .idle) : Run kinds s 0 (intr s) := by
  obtain ⟨pc, usr, pl, op, w⟩ := s
  simp only at hu
  subst hu
  have h1 : Run kinds ⟨pc, .idle, pl, op, w⟩ 0 _ := (Run.usr1 (.call _ rfl)).user (.planner _ rfl)
  exact h1.trans (intr_loop pc _ w op [])

/-- The claim a user expects: a call of `interrupt` made entirely during a resolution lets it begin one more unit of work at most. -/
def Effective (kinds : List Bool) : Prop :=
  ∀ s, Reach kinds s → s.usr = .idle → (∀ ok, s.pc ≠ .ended ok) → s.pc ≠ .idle → ∀ n t, Run kinds (intr s) n t → t.work ≤ s.work + 1

theorem reach_created {kinds : List Bool} : Reach kinds ⟨.created, .idle, some false, [], 0⟩ :=
  .solve (.call .start (.mk _ (Or.inl rfl))) (.init _ rfl)

theorem reach_planned {kinds : List Bool} : Reach kinds ⟨.planned, .idle, some false, [], 1⟩ :=
  reach_created.run ((((Run.one (.reset _ rfl)).solve (.worked _ true rfl)).solve (.solved _ rfl (by simp))))

theorem run_create {kinds : List Bool} (pl : Option Bool) (u : Usr) (w : Nat) : ∀ (k : Nat), k ≤ kinds.length →
    ∃ n, Run kinds ⟨.create, u, pl, [], w⟩ n ⟨.create, u, pl, List.replicate k false, w⟩
  | 0, _ => ⟨0, .nil _⟩
  | k + 1, h => by
    obtain ⟨n, hn⟩ := run_create (kinds := kinds) pl u w k (by omega)
    refine ⟨n + 1, ?_⟩
    have := hn.solve (.push _ rfl (by simp; omega))
    rwa [show (List.replicate k false ++ [false]) = List.replicate (k + 1) false from by rw [List.replicate_succ']] at this

/-- From the end of planning to the first optimizer. -/
theorem run_begin {kinds : List Bool} (pl : Option Bool) (u : Usr) (w : Nat) (op : List Bool) :
    ∃ n, Run kinds ⟨.planned, u, pl, op, w⟩ n ⟨.begin 0, u, pl, List.replicate kinds.length false, w⟩ := by
  obtain ⟨n, hn⟩ := run_create (kinds := kinds) pl u w kinds.length (Nat.le_refl _)
  exact ⟨_, (((Run.one (.path _ rfl)).solve (.clear _ rfl)).trans hn).solve (.pushed _ rfl (by simp))⟩

/-- C136: a call of `interrupt` made while the problem is initialised, or just after, is lost: the planner forgets it, and may then run for ever. -/
theorem C136_lost_counterexample (kinds : List Bool) :
    ∃ s, Reach kinds s ∧ s.usr = .idle ∧ s.pc = .created ∧ ∀ k, ∃ n, Run kinds (intr s) n { s with pc := .work, work := s.work + 1 + k } := by
  refine ⟨_, reach_created, rfl, rfl, fun k => ?_⟩
  have h1 : Run kinds (intr ⟨.created, .idle, some false, [], 0⟩) 1 _ := Run.one (.reset _ rfl)
  exact ⟨_, h1.trans (plan_n rfl (by simp) k)⟩

/-- C136: a call of `interrupt` made between the last test of the planner and the first optimizer is lost: the optimizers then run in full, and `solve` returns normally. -/
theorem C136_between_counterexample (kinds : List Bool) (h : kinds[0]? = some true) :
    ∃ s, Reach kinds s ∧ s.usr = .idle ∧ s.pc = .planned ∧ ∀ k, ∃ n t, Run kinds (intr s) n t ∧ t.work = s.work + k ∧ t.pc = .check 0 := by
  refine ⟨_, reach_planned, rfl, rfl, fun k => ?_⟩
  obtain ⟨n, hn⟩ := run_begin (kinds := kinds) (some true) .idle 1 []
  have h1 := hn.solve (.monitor _ 0 rfl h)
  have h2 := iterate_n (kinds := kinds) (i := 0) (s := ⟨.check 0, .idle, some true, (List.replicate kinds.length false).set 0 false, 1⟩) rfl
    (by rw [List.getElem?_set]; split <;> simp_all) k
  exact ⟨_, _, h1.trans h2, rfl, rfl⟩

/-- C136: a call of `interrupt` made while the planner tests its limits is lost when the target is reached: the optimizers then run in full. -/
theorem C136_limits_counterexample (kinds : List Bool) (h : kinds[0]? = some true) :
    ∃ s, Reach kinds s ∧ s.usr = .idle ∧ s.pc = .limits ∧ ∀ k, ∃ n t, Run kinds (intr s) n t ∧ t.work = s.work + k ∧ t.pc = .check 0 := by
  refine ⟨⟨.limits, .idle, some false, [], 1⟩, reach_created.run ((((Run.one (.reset _ rfl)).solve (.worked _ false rfl)).solve (.unsolved _ rfl (by simp)))), rfl, rfl, fun k => ?_⟩
  obtain ⟨n, hn⟩ := run_begin (kinds := kinds) (some true) .idle 1 []
  have h0 : Run kinds (intr ⟨.limits, .idle, some false, [], 1⟩) 1 _ := Run.one (.limitSolved _ rfl)
  have h1 := (h0.trans hn).solve (.monitor _ 0 rfl h)
  have h2 := iterate_n (kinds := kinds) (i := 0) (s := ⟨.check 0, .idle, some true, (List.replicate kinds.length false).set 0 false, 1⟩) rfl
    (by rw [List.getElem?_set]; split <;> simp_all) k
  exact ⟨_, _, h1.trans h2, rfl, rfl⟩

/-- Up to the iterations of the first optimizer. -/
theorem reach_first {kinds : List Bool} (h : kinds[0]? = some true) :
    Reach kinds ⟨.iter 0, .idle, some false, List.replicate kinds.length false, 2⟩ := by
  obtain ⟨n, hn⟩ := run_begin (kinds := kinds) (some false) .idle 1 []
  have e : (List.replicate kinds.length false).set 0 false = List.replicate kinds.length false := by
    cases kinds.length <;> simp [List.replicate_succ]
  have h1 := hn.solve (.monitor _ 0 rfl h)
  rw [e] at h1
  exact reach_planned.run (h1.solve (.iterate _ 0 rfl (by rw [List.getElem?_replicate]; split <;> simp)))

/-- C136: a call of `interrupt` made during an optimizer stops this one only: the next one forgets it and runs in full. -/
theorem C136_next_counterexample (kinds : List Bool) (h : kinds[0]? = some true) (h' : kinds[1]? = some true) :
    ∃ s, Reach kinds s ∧ s.usr = .idle ∧ s.pc = .iter 0 ∧ ∀ k, ∃ n t, Run kinds (intr s) n t ∧ t.work = s.work + k ∧ t.pc = .check 1 := by
  refine ⟨_, reach_first h, rfl, rfl, fun k => ?_⟩
  have hl : 1 < kinds.length := (List.getElem?_eq_some_iff.1 h').1
  have h0 : Run kinds (intr ⟨.iter 0, .idle, some false, List.replicate kinds.length false, 2⟩) 1 _ := Run.one (.iterated _ 0 rfl)
  have h1 := (h0.solve (.stop _ 0 rfl (by simp only [intr]; rw [List.getElem?_map, List.getElem?_replicate, if_pos (by omega)]; rfl))).solve (.monitor _ 1 rfl h')
  have h2 := h1.trans (iterate_n (i := 1) rfl (by simp only [intr]; rw [List.getElem?_set]; simp) k)
  exact ⟨_, _, h2, rfl, rfl⟩

/-- C136: an optimizer that does not read its flag cannot be interrupted. -/
theorem C136_blind_counterexample (kinds : List Bool) (h : kinds[0]? = some false) :
    ∃ s, Reach kinds s ∧ s.usr = .idle ∧ s.pc = .blind 0 ∧ ∀ k, ∃ n t, Run kinds (intr s) n t ∧ t.work = s.work + k ∧ t.pc = .blind 0 := by
  obtain ⟨n, hn⟩ := run_begin (kinds := kinds) (some false) .idle 1 []
  refine ⟨_, reach_planned.run (hn.solve (.blind _ 0 rfl h)), rfl, rfl, fun k => ?_⟩
  exact ⟨_, _, blind_n (i := 0) rfl k, rfl, rfl⟩

/-- C136: so the claim is false, whatever the optimizers are. -/
theorem C136_counterexample (kinds : List Bool) : ¬ Effective kinds := by
  intro h
  obtain ⟨s, h1, h2, h3, h4⟩ := C136_lost_counterexample kinds
  obtain ⟨n, hn⟩ := h4 1
  have := h s h1 h2 (by simp [h3]) (by simp [h3]) n _ hn
  simp only at this
  omega

/-- C136: nothing prevents `interrupt` from going through the optimizers while the other thread removes or adds some. -/
theorem C136_race_counterexample (kinds : List Bool) : ∃ s, Reach kinds s ∧ s.usr = .loop 0 ∧ s.pc = .clear := by
  have h := reach_planned.run (((Run.one (.path _ rfl)).user (.call _ rfl)).user (.planner _ rfl)) (kinds := kinds)
  exact ⟨_, h, rfl, rfl⟩

/-! ## Examples: the hypotheses are met -/

/-- A call during the first step: the schedule of `C136_planning_partial` exists. -/
example : Reach [true, false] ⟨.work, .idle, some true, [], 1⟩ :=
  reach_created.run ((Run.one (.reset _ rfl)).trans (run_intr _ rfl))

/-- A call during the only optimizer: the schedule of `C136_last_partial` exists. -/
example : Reach [true] ⟨.iter 0, .idle, some true, [true], 2⟩ :=
  (reach_first (kinds := [true]) rfl).run (run_intr _ rfl)

/-- Calls that begin while the planner, or an optimizer, runs. -/
example : Reach [true] ⟨.work, .begin, some false, [], 1⟩ := reach_created.run ((Run.one (.reset _ rfl)).trans (Run.usr1 (.call _ rfl)))
example : Reach [true] ⟨.iter 0, .begin, some false, [false], 2⟩ := (reach_first (kinds := [true]) rfl).run (Run.usr1 (.call _ rfl))

/-- A resolution that begins after a call: the flag is still up, as `C136_fresh` allows. -/
example : Reach [true] ⟨.init, .idle, some true, [], 1⟩ :=
  .call (reach_created.run (((Run.one (.reset _ rfl)).trans (run_intr _ rfl)).solve (.raised _ rfl))) (.mk _ (Or.inr ⟨_, rfl⟩))

end Verif.Interrupt
