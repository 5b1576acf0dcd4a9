import Mathlib.Data.List.Basic
import Mathlib.Tactic.Common
set_option linter.unusedSectionVars false

/-!
# Roadmaps kept between resolutions (C143)

`ProblemSolver` keeps its roadmap from one resolution to the next: a path returned by `solve` may be made of edges built by former resolutions, or given by the user, under other settings.  This module follows what is
required of paths (obstacles, path validation, constraints) and the edges of the roadmap through sessions.
-/
namespace Verif.Kept

/-- Requirements on a path: it does not meet the obstacle, as far as this path validation can tell; it satisfies the constraint. -/
inductive Req (O V C : Type) where
  | free (o : O) (v : V)
  | sat (c : C)

variable {E O V C : Type} [DecidableEq O]

/-- Members of `ProblemSolver` used here: collision obstacles, obstacles given to the problem, obstacles known to its path validation (with the shape that they had when they were given to it: C135), selected path validation, constraints (C99: one set shared by solver, problem
and steering method), whether there is a problem, edges of the roadmap, paths. -/
structure St (E O V C : Type) where
  obstacles : List O
  given : List O
  known : List O
  pv : V
  cons : List C
  problem : Bool
  road : List E
  paths : List (List E)

/-- Calls.  `cut o o'`: what remains of the obstacle `o` is `o'`; `none`: nothing.  `solve new path`: the planner adds the edges `new` and returns `path`. -/
inductive Op (E O V C : Type) where
  | robot
  | resetProblem
  | resetRoadmap
  | addObstacle (o : O) (collision : Bool)
  | removeObstacle (o : O)
  | cutObstacle (o : O) (o' : Option O)
  | pathValidationType (v : V)
  | addConstraint (c : C)
  | resetConstraints
  | addEdge (e : E)
  | solve (new path : List E)

/-- `resetProblem`, `initializeProblem`: problem-solver.cc:611-631. -/
def St.reset (s : St E O V C) : St E O V C := { s with given := s.obstacles, known := s.obstacles, problem := true, road := [] }

/-- Removal: problem-solver.cc:944-972. -/
def St.remove (s : St E O V C) (o : O) : St E O V C := ({ s with obstacles := s.obstacles.erase o } : St E O V C).reset

/-- `robot`: problem-solver.cc:463-475; `resetRoadmap`: 674-677; `addObstacle`: 862-901; `cutObstacle`: 974-990 (the validations keep the former shape: C135); `pathValidationType`: 360-373 (the new validation is given the obstacles of the problem: 375-393);
`addConstraint`, `resetConstraints`: 509-523, and `addNumericalConstraintToConfigProjector`: 525-543; `addEdgeToRoadmap`: 799-815; `solve`: 741-747.  Calls that throw for want of a problem are no-ops here, but for
`addObstacle`, which registers the obstacle before it throws. -/
def step (s : St E O V C) : Op E O V C → St E O V C
  | .robot => ({ s with cons := [] } : St E O V C).reset
  | .resetProblem => s.reset
  | .resetRoadmap => { s with road := [] }
  | .addObstacle o collision =>
    let s1 := if collision then { s with obstacles := s.obstacles ++ [o], road := if s.problem then [] else s.road } else s
    { s1 with given := if s.problem then s.given ++ [o] else s.given, known := if s.problem then s.known ++ [o] else s.known }
  | .removeObstacle o => if o ∈ s.obstacles then s.remove o else s
  | .cutObstacle o o' => if o ∈ s.obstacles then match o' with
      | none => s.remove o
      | some o' => let f := fun x => if x = o then o' else x; { s with obstacles := s.obstacles.map f, given := s.given.map f }
    else s
  | .pathValidationType v => { s with pv := v, known := if s.problem then s.given else s.known }
  | .addConstraint c => { s with cons := s.cons ++ [c] }
  | .resetConstraints => { s with cons := [] }
  | .addEdge e => { s with road := s.road ++ [e] }
  | .solve new path => { s with road := s.road ++ new, paths := s.paths ++ [path] }

def start (v : V) : St E O V C := ⟨[], [], [], v, [], false, [], []⟩

/-! ## Specification -/

/-- What is required of paths by the present settings. -/
def Required (s : St E O V C) : Req O V C → Prop
  | .free o v => o ∈ s.obstacles ∧ v = s.pv
  | .sat c => c ∈ s.cons

variable (meets : E → Req O V C → Prop)

/-- What is assumed of the environment: the edges that a planner adds have been validated against the obstacles known to the path validation and satisfy the constraints; the path is made of edges of the roadmap; what remains
of an obstacle is a part of it. -/
def Env (s : St E O V C) : Op E O V C → Prop
  | .solve new path => s.problem = true ∧ (∀ e ∈ new, (∀ o ∈ s.known, meets e (.free o s.pv)) ∧ ∀ c ∈ s.cons, meets e (.sat c)) ∧ ∀ e ∈ path, e ∈ s.road ++ new
  | .cutObstacle o (some o') => ∀ e v, meets e (.free o v) → meets e (.free o' v)
  | _ => True

/-- What the user must respect: another path validation or more constraints are given only when the roadmap has no edges; edges given by hand meet the requirements. -/
def Rule (s : St E O V C) : Op E O V C → Prop
  | .pathValidationType _ | .addConstraint _ => s.road = []
  | .addEdge e => s.problem = true ∧ ∀ r, Required s r → meets e r
  | _ => True

/-- All calls of a session are made in these conditions. -/
def All (ok : St E O V C → Op E O V C → Prop) : List (Op E O V C) → St E O V C → Prop
  | [], _ => True
  | o :: l, s => ok s o ∧ All ok l (step s o)

def run : List (Op E O V C) → St E O V C → St E O V C
  | [], s => s
  | o :: l, s => run l (step s o)

/-! ## Proof -/

/-- Every edge of the roadmap meets what is required; obstacles are known to the path validation, or were before they were cut. -/
structure Inv (s : St E O V C) : Prop where
  road : ∀ e ∈ s.road, ∀ r, Required s r → meets e r
  known : s.problem = true → ∀ o ∈ s.obstacles, ∃ o0 ∈ s.known, ∀ e v, meets e (.free o0 v) → meets e (.free o v)
  given : s.problem = true → ∀ o ∈ s.obstacles, o ∈ s.given
  none : s.problem = false → s.road = []

variable {meets}

theorem inv_reset (s : St E O V C) : Inv meets s.reset := ⟨fun e he => by simp [St.reset] at he, fun _ o ho => ⟨o, ho, fun _ _ h => h⟩, fun _ _ ho => ho, fun _ => rfl⟩

/-- The edges added by a planner. -/
theorem new_meets {s : St E O V C} (i : Inv meets s) {new path : List E} (h : Env meets s (.solve new path)) : ∀ e ∈ new, ∀ r, Required s r → meets e r := by
  intro e he r hr
  obtain ⟨h1, h2⟩ := h.2.1 e he
  cases r with
  | free o v =>
    obtain ⟨ho, rfl⟩ := hr
    obtain ⟨o0, k1, k2⟩ := i.known h.1 o ho
    exact k2 e _ (h1 o0 k1)
  | sat c => exact h2 c hr

theorem inv_step {s : St E O V C} (i : Inv meets s) (o : Op E O V C) (he : Env meets s o) (hr : Rule meets s o) : Inv meets (step s o) := by
  cases o with
  | robot => exact inv_reset _
  | resetProblem => exact inv_reset _
  | resetRoadmap => exact ⟨fun e he => by simp [step] at he, i.known, i.given, fun _ => rfl⟩
  | addObstacle o collision =>
    cases hp : s.problem with
    | true =>
      refine ⟨fun e he r hr => ?_, fun _ o' ho' => ?_, fun _ o' ho' => ?_, fun h => ?_⟩
      · cases collision with
        | true => simp [step, hp] at he
        | false =>
          refine i.road e (by simpa [step, hp] using he) r ?_
          cases r with
          | free o v => exact ⟨by simpa [step, hp, Required] using hr.1, by simpa [step] using hr.2⟩
          | sat c => simpa [step, Required] using hr
      · cases collision with
        | true =>
          simp only [step, hp, if_true, List.mem_append, List.mem_singleton] at ho' ⊢
          rcases ho' with ho' | rfl
          · obtain ⟨o0, k1, k2⟩ := i.known hp o' ho'
            exact ⟨o0, Or.inl k1, k2⟩
          · exact ⟨o', Or.inr rfl, fun _ _ h => h⟩
        | false =>
          simp only [step, hp, if_true, Bool.false_eq_true, if_false] at ho' ⊢
          obtain ⟨o0, k1, k2⟩ := i.known hp o' ho'
          exact ⟨o0, List.mem_append_left _ k1, k2⟩
      · cases collision with
        | true =>
          simp only [step, hp, if_true, List.mem_append, List.mem_singleton] at ho' ⊢
          exact ho'.imp_left (i.given hp o')
        | false =>
          simp only [step, hp, if_true, Bool.false_eq_true, if_false] at ho' ⊢
          exact List.mem_append_left _ (i.given hp o' ho')
      · cases collision <;> simp [step, hp] at h
    | false =>
      have h0 := i.none hp
      refine ⟨fun e he => ?_, fun h => ?_, fun h => ?_, fun _ => ?_⟩
      · cases collision <;> simp [step, hp, h0] at he
      · cases collision <;> simp [step, hp] at h
      · cases collision <;> simp [step, hp] at h
      · cases collision <;> simp [step, hp, h0]
  | removeObstacle o =>
    simp only [step]
    split
    · exact inv_reset _
    · exact i
  | cutObstacle o o' =>
    simp only [step]
    split
    · next ho =>
      cases o' with
      | none => exact inv_reset _
      | some o' =>
        have hcut : ∀ e v, meets e (.free o v) → meets e (.free o' v) := he
        refine ⟨fun e he r hr => ?_, fun hp x hx => ?_, fun hp x hx => ?_, i.none⟩
        · cases r with
          | free x v =>
            obtain ⟨hx, hv⟩ := hr
            obtain ⟨y, hy, e1⟩ := List.mem_map.1 hx
            have e1 : (if y = o then o' else y) = x := e1
            rw [← e1]
            by_cases e2 : y = o
            · rw [if_pos e2]; exact hcut e v (i.road e he (.free o v) ⟨ho, hv⟩)
            · rw [if_neg e2]; exact i.road e he (.free y v) ⟨hy, hv⟩
          | sat c => exact i.road e he (.sat c) hr
        · obtain ⟨y, hy, e1⟩ := List.mem_map.1 hx
          have e1 : (if y = o then o' else y) = x := e1
          rw [← e1]
          by_cases e2 : y = o
          · rw [if_pos e2]
            obtain ⟨o0, k1, k2⟩ := i.known hp o ho
            exact ⟨o0, k1, fun e v h => hcut e v (k2 e v h)⟩
          · rw [if_neg e2]; exact i.known hp y hy
        · obtain ⟨y, hy, e1⟩ := List.mem_map.1 hx
          exact List.mem_map.2 ⟨y, i.given hp y hy, e1⟩
    · exact i
  | pathValidationType v =>
    have h0 : s.road = [] := hr
    refine ⟨fun e he => by simp [step, h0] at he, fun hp x hx => ⟨x, ?_, fun _ _ h => h⟩, i.given, fun _ => h0⟩
    have hp' : s.problem = true := hp
    simp only [step, hp', if_true]
    exact i.given hp x hx
  | addConstraint c =>
    have h0 : s.road = [] := hr
    exact ⟨fun e he => by simp [step, h0] at he, i.known, i.given, fun _ => h0⟩
  | resetConstraints =>
    refine ⟨fun e he r hr => ?_, i.known, i.given, i.none⟩
    cases r with
    | free o v => exact i.road e he (.free o v) hr
    | sat c => simp [Required, step] at hr
  | addEdge e =>
    refine ⟨fun e' he' r hr' => ?_, i.known, i.given, fun h => absurd (hr.1.symm.trans h) (by simp)⟩
    have hr'' : Required s r := by cases r <;> exact hr'
    rcases List.mem_append.1 he' with h | h
    · exact i.road e' h r hr''
    · rw [List.mem_singleton.1 h]; exact hr.2 r hr''
  | solve new path =>
    refine ⟨fun e' he' r hr' => ?_, i.known, i.given, fun h => absurd (he.1.symm.trans h) (by simp)⟩
    have hr'' : Required s r := by cases r <;> exact hr'
    rcases List.mem_append.1 he' with h | h
    · exact i.road e' h r hr''
    · exact new_meets i he e' h r hr''

theorem inv_run {s : St E O V C} (i : Inv meets s) (l : List (Op E O V C)) (he : All (Env meets) l s) (hr : All (Rule meets) l s) : Inv meets (run l s) := by
  induction l generalizing s with
  | nil => exact i
  | cons o l ih => exact ih (inv_step i o he.1 hr.1) he.2 hr.2

theorem inv_start (v : V) : Inv meets (start v) := ⟨by simp [start], by simp [start], by simp [start], by simp [start]⟩

theorem all_append {ok : St E O V C → Op E O V C → Prop} (l m : List (Op E O V C)) (s : St E O V C) : All ok (l ++ m) s ↔ All ok l s ∧ All ok m (run l s) := by
  induction l generalizing s with
  | nil => simp [All, run]
  | cons o l ih => simp only [List.cons_append, All, run, ih, and_assoc]

/-- C143: the path returned by `solve` meets everything that is required when `solve` is called, edges of former resolutions included.  Partial: see the rules. -/
theorem C143_solve_partial (v : V) (l : List (Op E O V C)) (new path : List E) (he : All (Env meets) (l ++ [.solve new path]) (start v)) (hr : All (Rule meets) l (start v)) :
    (run (l ++ [.solve new path]) (start v)).paths.getLast? = some path ∧ ∀ e ∈ path, ∀ r, Required (run l (start v)) r → meets e r := by
  have hrun : ∀ (l : List (Op E O V C)) (s : St E O V C) (o : Op E O V C), run (l ++ [o]) s = step (run l s) o := by
    intro l
    induction l with
    | nil => intro s o; rfl
    | cons a l ih => intro s o; exact ih _ o
  obtain ⟨h1, h2⟩ := (all_append _ _ _).1 he
  have i := inv_run (inv_start v) l h1 hr
  refine ⟨by rw [hrun]; simp [step], fun e hx r hr' => ?_⟩
  rcases List.mem_append.1 (h2.1.2.2 e hx) with h | h
  · exact i.road e h r hr'
  · exact new_meets i h2.1 e h r hr'

/-! ## Examples and counterexamples -/

/-- Edges, obstacles and constraints are numbers; an edge avoids the obstacles other than its own number as the validation `1` can tell, the validation `0` accepts everything; it satisfies the constraints with a number less than its own. -/
def exMeets (e : Nat) : Req Nat Nat Nat → Prop
  | .free o v => v = 0 ∨ e ≠ o
  | .sat c => c < e

/-- C143 without the rule on constraints: a constraint is added between two resolutions, the path of the first one, which does not satisfy it, is returned by the second one. -/
theorem C143_constraint_counterexample :
    ∃ l : List (Op Nat Nat Nat Nat), All (Env exMeets) (l ++ [.solve [] [3]]) (start 1) ∧ ∃ r, Required (run l (start 1)) r ∧ ¬ exMeets 3 r :=
  ⟨[.robot, .addConstraint 1, .solve [3] [3], .addConstraint 5], by simp [All, Env, step, start, St.reset, exMeets], .sat 5, by simp [run, step, Required], by simp [exMeets]⟩

/-- C143 without the rule on validations: a path found with the validation that accepts everything is returned once another validation is selected. -/
theorem C143_validation_counterexample :
    ∃ l : List (Op Nat Nat Nat Nat), All (Env exMeets) (l ++ [.solve [] [3]]) (start 1) ∧ ∃ r, Required (run l (start 1)) r ∧ ¬ exMeets 3 r :=
  ⟨[.robot, .addObstacle 3 true, .pathValidationType 0, .solve [3] [3], .pathValidationType 1], by simp [All, Env, step, start, St.reset, exMeets], .free 3 1, by simp [run, step, Required, St.reset, start],
    by simp [exMeets]⟩

/-- C143 without the rule on edges: an edge given by hand is not validated. -/
theorem C143_edge_counterexample :
    ∃ l : List (Op Nat Nat Nat Nat), All (Env exMeets) (l ++ [.solve [] [3]]) (start 1) ∧ ∃ r, Required (run l (start 1)) r ∧ ¬ exMeets 3 r :=
  ⟨[.robot, .addObstacle 3 true, .addEdge 3], by simp [All, Env, step, start, St.reset], .free 3 1, by simp [run, step, Required, St.reset, start], by simp [exMeets]⟩

/-- A session in which obstacles are added, cut and removed between resolutions. -/
def session : List (Op Nat Nat Nat Nat) :=
  [.robot, .addConstraint 1, .addObstacle 4 true, .solve [3] [3], .addObstacle 3 true, .addConstraint 2, .solve [5, 6] [5], .addObstacle 9 false, .resetConstraints, .removeObstacle 4]

example : All (Env exMeets) (session ++ [.solve [4] [4]]) (start 1) ∧ All (Rule exMeets) session (start 1) := by
  constructor
  · simp [All, Env, step, session, start, St.reset, St.remove, exMeets]
  · simp [All, Rule, step, session, start, St.reset]

end Verif.Kept
