import Mathlib.Data.List.Basic
import Mathlib.Data.List.Pairwise
import Mathlib.Tactic.Common
set_option linter.unusedSectionVars false

/-!
# Obstacles of `ProblemSolver` (C57, C74)
-/
namespace Verif.Solver
variable {N G : Type} [DecidableEq N]

/-- A `CollisionObject` made by the solver: the geometric model it refers to (by rank of creation) and `indexInModel ()`. -/
structure Obj where
  gen : Nat
  idx : Nat
deriving DecidableEq, Repr

/-- The part of `Problem` and of its validations that depends on obstacles: `collisionObstacles_`, the obstacles known to the path validation, to
each config validation, and to `distanceBetweenObjects_` (member of the solver, created together with the problem). -/
structure Prob where
  obs : List Obj
  pv : List Obj
  cvs : List (List Obj)
  dbo : List Obj
deriving DecidableEq, Repr

/-- Members of `ProblemSolver`: `obstacleModel_->geometryObjects` (names and geometries; `obstacleData_->oMg` has the same indices and is
updated in the same way), the previous models to which objects may still refer, `collisionObstacles_`, `distanceObstacles_`, the number of
`configValidationTypes_`, `problem_` (`none` for a null pointer). -/
structure State (N G : Type) where
  old : List (List (N × G))
  cur : List (N × G)
  col : List Obj
  dist : List Obj
  types : Nat
  prob : Option Prob
deriving DecidableEq, Repr

inductive Err where
  | runtime | invalid
  /-- null robot dereferenced -/
  | ub
deriving DecidableEq, Repr

/-- Constructor: problem-solver.cc:168-206; two config validations by default. -/
def State.init : State N G := ⟨[], [], [], [], 2, none⟩

/-- `Problem::addObstacle`: problem.cc:190-202. -/
def Prob.addObstacle (p : Prob) (o : Obj) : Prob :=
  { p with obs := p.obs ++ [o], pv := p.pv ++ [o], cvs := p.cvs.map (· ++ [o]) }

/-- `Problem::collisionObstacles (list)`: problem.cc:179-186. -/
def Prob.collisionObstacles (p : Prob) (l : List Obj) : Prob :=
  l.foldl Prob.addObstacle { p with obs := [] }

/-- `initPathValidation`: problem-solver.cc:375-395: a new path validation is given the obstacles of the problem. -/
def Prob.initPathValidation (p : Prob) : Prob := { p with pv := p.obs }

/-- `initConfigValidation`: problem-solver.cc:395-406: new config validations, without obstacles. -/
def Prob.initConfigValidation (p : Prob) (types : Nat) : Prob := { p with cvs := List.replicate types [] }

/-- `resetProblem`, `initializeProblem`: problem-solver.cc:612-631. -/
def State.resetProblem (s : State N G) : State N G :=
  let p : Prob := ⟨[], [], [], []⟩
  let p := (p.initPathValidation.initConfigValidation s.types).collisionObstacles s.col
  { s with prob := some { p with dbo := s.dist } }

/-- `existGeometryName`, `getGeometryId` of pinocchio: the first geometry with this name. -/
def State.id (s : State N G) (n : N) : Option Nat := s.cur.findIdx? (fun x => x.1 = n)

/-- The function `remove (ObjectStdVector_t&, const GeomIndex&)`: problem-solver.cc:111-116. -/
def removeObj (l : List Obj) (id : Nat) : List Obj := l.eraseP (fun o => o.idx = id)

/-- The loops problem-solver.cc:957-968: new objects of the current model with the index decreased. -/
def shiftObj (gen id : Nat) (o : Obj) : Obj := if id < o.idx then ⟨gen, o.idx - 1⟩ else o

/-- Calls.  The argument of `cut` is the result of `extract` (`none` for a null pointer). -/
inductive Op (N G : Type) where
  | robot
  | add (n : N) (g : G) (collision distance : Bool)
  | remove (n : N)
  | cut (n : N) (r : Option G)
  | pathValidationType
  | addConfigValidation
  | clearConfigValidations
  | initValidations
  | initConfigValidation
  | resetProblem

/-- `removeObstacle`: problem-solver.cc:944-971. -/
def State.remove (s : State N G) (n : N) : State N G × Option Err :=
  match s.id n with
  | none => (s, some .invalid)
  | some id =>
    let s1 := { s with
      cur := s.cur.eraseIdx id
      col := (removeObj s.col id).map (shiftObj s.old.length id)
      dist := (removeObj s.dist id).map (shiftObj s.old.length id) }
    match s.prob with
    | none => (s1, some .ub)
    | some _ => (s1.resetProblem, none)

/-- `addObstacle`: problem-solver.cc:863-901 (and 903-942, the same with another type of argument). -/
def State.add (s : State N G) (n : N) (g : G) (collision distance : Bool) : State N G × Option Err :=
  match s.id n with
  | some _ => (s, some .runtime)
  | none =>
    let o : Obj := ⟨s.old.length, s.cur.length⟩
    let s1 := { s with cur := s.cur ++ [(n, g)], col := if collision = true then s.col ++ [o] else s.col }
    if collision = true ∧ s.prob = none then (s1, some .runtime)
    else
      let s2 := { s1 with dist := if distance = true then s.dist ++ [o] else s.dist }
      ({ s2 with prob := s.prob.map (fun p => { p.addObstacle o with dbo := p.dbo ++ [o] }) }, none)

/-- One call.  `robot`: problem-solver.cc:464-475; `cutObstacle`: 973-991; `pathValidationType`: 360-372; `addConfigValidation`: 435-447;
`clearConfigValidations`: 449-452; `initValidations`: 408-412. -/
def step (s : State N G) : Op N G → State N G × Option Err
  | .robot => (State.resetProblem { s with old := s.old ++ [s.cur], cur := [] }, none)
  | .add n g c d => s.add n g c d
  | .remove n => s.remove n
  | .cut n r => match s.id n with
    | none => (s, some .invalid)
    | some id => match r with
      | none => s.remove n
      | some g => ({ s with cur := s.cur.modify id (fun x => (x.1, g)) }, none)
  | .pathValidationType => ({ s with prob := s.prob.map Prob.initPathValidation }, none)
  | .addConfigValidation =>
    let s1 := { s with types := s.types + 1 }
    match s.prob with
    | none => (s1, some .runtime)
    | some p => ({ s1 with prob := some ((p.initConfigValidation s1.types).collisionObstacles s.col) }, none)
  | .clearConfigValidations => match s.prob with
    | none => ({ s with types := 0 }, some .ub)
    | some p => ({ s with types := 0, prob := some { p with cvs := [] } }, none)
  | .initValidations => match s.prob with
    | none => (s, some .runtime)
    | some p => ({ s with prob := some ((p.initPathValidation.initConfigValidation s.types).collisionObstacles s.col) }, none)
  | .initConfigValidation => match s.prob with
    | none => (s, some .runtime)
    | some p => ({ s with prob := some (p.initConfigValidation s.types) }, none)
  | .resetProblem => (s.resetProblem, none)

def exec (s : State N G) : List (Op N G) → State N G
  | [] => s
  | o :: l => exec (step s o).1 l

/-- What a user sees of an object: `name ()` and `geometry ()`. -/
def State.deref (s : State N G) (o : Obj) : Option (N × G) := ((s.old ++ [s.cur])[o.gen]?).bind (fun m => m[o.idx]?)

/-- Names and geometries of `collisionObstacles ()` and `distanceObstacles ()`, and of `obstacle (name)`: problem-solver.cc:1016-1023, 1035-1059. -/
def State.colSeen (s : State N G) : List (Option (N × G)) := s.col.map s.deref
def State.distSeen (s : State N G) : List (Option (N × G)) := s.dist.map s.deref
def State.obstacle (s : State N G) (n : N) : Option (N × G) := (s.id n).bind (fun i => s.deref ⟨s.old.length, i⟩)

/-! ## Specification -/

/-- A registered obstacle. -/
structure Live (N G : Type) where
  name : N
  geom : G
  col : Bool
  dist : Bool

/-- Effect of a call on the registered obstacles in order of addition, and the exception. -/
inductive Spec : List (Live N G) → Op N G → List (Live N G) → Option Err → Prop
  | robot : Spec [] .robot [] none
  | add {L : List (Live N G)} {n : N} {g : G} {c d : Bool} (h : ∀ x ∈ L, x.name ≠ n) : Spec L (.add n g c d) (L ++ [⟨n, g, c, d⟩]) none
  | addThrows {L : List (Live N G)} {n : N} {g : G} {c d : Bool} (x : Live N G) (h : x ∈ L) (hx : x.name = n) :
      Spec L (.add n g c d) L (some .runtime)
  | remove {A B : List (Live N G)} (x : Live N G) : Spec (A ++ x :: B) (.remove x.name) (A ++ B) none
  | removeThrows {L : List (Live N G)} {n : N} (h : ∀ x ∈ L, x.name ≠ n) : Spec L (.remove n) L (some .invalid)
  | cut {A B : List (Live N G)} (x : Live N G) : Spec (A ++ x :: B) (.cut x.name none) (A ++ B) none
  | cutKeep {A B : List (Live N G)} (x : Live N G) (g : G) :
      Spec (A ++ x :: B) (.cut x.name (some g)) (A ++ { x with geom := g } :: B) none
  | cutThrows {L : List (Live N G)} {n : N} {r : Option G} (h : ∀ x ∈ L, x.name ≠ n) : Spec L (.cut n r) L (some .invalid)
  | pathValidationType (L : List (Live N G)) : Spec L .pathValidationType L none
  | addConfigValidation (L : List (Live N G)) : Spec L .addConfigValidation L none
  | clearConfigValidations (L : List (Live N G)) : Spec L .clearConfigValidations L none
  | initValidations (L : List (Live N G)) : Spec L .initValidations L none
  | initConfigValidation (L : List (Live N G)) : Spec L .initConfigValidation L none
  | resetProblem (L : List (Live N G)) : Spec L .resetProblem L none

/-- Executions: the robot is set first, and set again only when no obstacle is registered. -/
inductive Run : State N G → List (Live N G) → Prop
  | start : Run (step State.init .robot).1 []
  | step {s : State N G} {L L' : List (Live N G)} (h : Run s L) (op : Op N G) {e : Option Err} (hs : Spec L op L' e) : Run (step s op).1 L'

/-- Ranks of the elements with a property. -/
def ranks (f : Live N G → Bool) : List (Live N G) → List Nat
  | [] => []
  | x :: l => (if f x = true then [0] else []) ++ (ranks f l).map (· + 1)

structure Inv (s : State N G) (L : List (Live N G)) : Prop where
  cur : s.cur = L.map (fun x => (x.name, x.geom))
  nodup : (L.map (·.name)).Nodup
  col : s.col = (ranks (·.col) L).map (fun i => ⟨s.old.length, i⟩)
  dist : s.dist = (ranks (·.dist) L).map (fun i => ⟨s.old.length, i⟩)
  prob : s.prob ≠ none

theorem ranks_append (f : Live N G → Bool) (A B : List (Live N G)) : ranks f (A ++ B) = ranks f A ++ (ranks f B).map (· + A.length) := by
  induction A with
  | nil => simp [ranks]
  | cons x A ih =>
    simp only [List.cons_append, ranks, ih, List.map_append, List.map_map, List.append_assoc, List.length_cons]
    congr 2

theorem ranks_lt (f : Live N G → Bool) (A : List (Live N G)) : ∀ i ∈ ranks f A, i < A.length := by
  induction A with
  | nil => simp [ranks]
  | cons x A ih =>
    intro i hi
    rw [ranks] at hi
    rcases List.mem_append.1 hi with hi | hi
    · split at hi
      · rw [List.mem_singleton.1 hi]; simp
      · simp at hi
    · obtain ⟨j, hj, rfl⟩ := List.mem_map.1 hi
      have := ih j hj
      simp only [List.length_cons]
      omega

theorem ranks_get (f : Live N G → Bool) (A : List (Live N G)) : (ranks f A).map (fun i => A[i]?) = (A.filter f).map some := by
  induction A with
  | nil => simp [ranks]
  | cons x A ih =>
    rw [ranks, List.map_append, List.map_map]
    have : (List.map ((fun i => (x :: A)[i]?) ∘ fun x => x + 1) (ranks f A)) = (A.filter f).map some := by
      rw [← ih]
      apply List.map_congr_left
      intro i _
      simp
    rw [this]
    cases hf : f x with
    | true => simp [hf]
    | false => simp [hf]

/-- Effect of the removal of an object and of the decrease of indices. -/
theorem remove_shift (f : Live N G → Bool) (g : Nat) (A B : List (Live N G)) (x : Live N G) :
    (removeObj ((ranks f (A ++ x :: B)).map (fun i => (⟨g, i⟩ : Obj))) A.length).map (shiftObj g A.length) =
      (ranks f (A ++ B)).map (fun i => ⟨g, i⟩) := by
  have h1 : ∀ (l : List Nat), (∀ i ∈ l, i < A.length) → (l.map (fun i => (⟨g, i⟩ : Obj))).eraseP (fun o => o.idx = A.length) =
      l.map (fun i => (⟨g, i⟩ : Obj)) := by
    intro l hl
    apply List.eraseP_of_forall_not
    intro o ho
    obtain ⟨i, hi, rfl⟩ := List.mem_map.1 ho
    have := hl i hi
    simp only [decide_eq_true_eq]
    omega
  have h2 : ∀ (l : List Nat), (∀ i ∈ l, i < A.length) → (l.map (fun i => (⟨g, i⟩ : Obj))).map (shiftObj g A.length) =
      l.map (fun i => (⟨g, i⟩ : Obj)) := by
    intro l hl
    rw [List.map_map]
    apply List.map_congr_left
    intro i hi
    have := hl i hi
    simp only [Function.comp_apply, shiftObj]
    rw [if_neg (by omega)]
  have h3 : ∀ (l : List Nat), (l.map (fun i => (⟨g, i + 1 + A.length⟩ : Obj))).eraseP (fun o => o.idx = A.length) =
      l.map (fun i => (⟨g, i + 1 + A.length⟩ : Obj)) := by
    intro l
    apply List.eraseP_of_forall_not
    intro o ho
    obtain ⟨i, hi, rfl⟩ := List.mem_map.1 ho
    simp only [decide_eq_true_eq]
    omega
  have h4 : ∀ (l : List Nat), (l.map (fun i => (⟨g, i + 1 + A.length⟩ : Obj))).map (shiftObj g A.length) =
      l.map (fun i => (⟨g, i + A.length⟩ : Obj)) := by
    intro l
    rw [List.map_map]
    apply List.map_congr_left
    intro i hi
    simp only [Function.comp_apply, shiftObj]
    rw [if_pos (by omega)]
    congr 1
    omega
  have hlt := ranks_lt f A
  unfold removeObj
  have e1 : (ranks f (A ++ x :: B)).map (fun i => (⟨g, i⟩ : Obj)) = (ranks f A).map (fun i => (⟨g, i⟩ : Obj)) ++
      ((if f x = true then [(⟨g, A.length⟩ : Obj)] else []) ++ (ranks f B).map (fun i => (⟨g, i + 1 + A.length⟩ : Obj))) := by
    rw [ranks_append, ranks]
    simp only [List.map_append, List.map_map]
    congr 2
    cases f x <;> simp
  have e2 : (ranks f (A ++ B)).map (fun i => (⟨g, i⟩ : Obj)) = (ranks f A).map (fun i => (⟨g, i⟩ : Obj)) ++
      (ranks f B).map (fun i => (⟨g, i + A.length⟩ : Obj)) := by
    rw [ranks_append, List.map_append, List.map_map]; rfl
  rw [e1, e2, List.eraseP_append_right]
  · rw [List.map_append, h2 _ hlt]
    congr 1
    cases hf : f x with
    | true =>
      simp only [if_true, List.singleton_append]
      rw [List.eraseP_cons_of_pos (by simp)]
      exact h4 _
    | false =>
      simp only [Bool.false_eq_true, if_false, List.nil_append]
      rw [h3, h4]
  · intro o ho
    obtain ⟨i, hi, rfl⟩ := List.mem_map.1 ho
    have := hlt i hi
    simp only [decide_eq_true_eq]
    omega

theorem inv_id_none {s : State N G} {L : List (Live N G)} (h : Inv s L) {n : N} (hn : ∀ x ∈ L, x.name ≠ n) : s.id n = none := by
  unfold State.id
  rw [h.cur, List.findIdx?_eq_none_iff]
  intro y hy
  obtain ⟨x, hx, rfl⟩ := List.mem_map.1 hy
  simpa using hn x hx

theorem inv_id_some {s : State N G} {A B : List (Live N G)} {x : Live N G} (h : Inv s (A ++ x :: B)) : s.id x.name = some A.length := by
  unfold State.id
  rw [h.cur, List.map_append, List.map_cons, List.findIdx?_append, List.findIdx?_cons]
  have hA : List.findIdx? (fun y => decide (y.1 = x.name)) (A.map (fun x => (x.name, x.geom))) = none := by
    rw [List.findIdx?_eq_none_iff]
    intro y hy
    obtain ⟨z, hz, rfl⟩ := List.mem_map.1 hy
    have := h.nodup
    rw [List.map_append, List.map_cons] at this
    have h2 := (List.nodup_append.1 this).2.2 z.name (List.mem_map.2 ⟨z, hz, rfl⟩) x.name (by simp)
    simpa using h2
  rw [hA]
  simp

theorem prob_reset (s : State N G) : s.resetProblem.prob ≠ none := by simp [State.resetProblem]

theorem inv_congr {s s' : State N G} {L : List (Live N G)} (h : Inv s L) (h1 : s'.old = s.old) (h2 : s'.cur = s.cur) (h3 : s'.col = s.col)
    (h4 : s'.dist = s.dist) (h5 : s'.prob ≠ none) : Inv s' L :=
  ⟨by rw [h2, h.cur], h.nodup, by rw [h3, h1, h.col], by rw [h4, h1, h.dist], h5⟩

theorem inv_remove {s : State N G} {A B : List (Live N G)} {x : Live N G} (h : Inv s (A ++ x :: B)) :
    Inv (s.remove x.name).1 (A ++ B) ∧ (s.remove x.name).2 = none := by
  unfold State.remove
  rw [inv_id_some h]
  dsimp only
  cases hp : s.prob with
  | none => exact absurd hp h.prob
  | some p =>
    refine ⟨⟨?_, ?_, ?_, ?_, prob_reset _⟩, rfl⟩
    · show s.cur.eraseIdx A.length = _
      rw [h.cur, List.map_append, List.map_cons, List.map_append]
      rw [List.eraseIdx_append_of_length_le (by simp)]
      simp
    · have := h.nodup
      rw [List.map_append, List.map_cons] at this
      rw [List.map_append]
      exact (this.sublist (List.Sublist.append_left (List.sublist_cons_self _ _) _))
    · show (removeObj s.col A.length).map (shiftObj s.old.length A.length) = _
      rw [h.col, remove_shift]
      rfl
    · show (removeObj s.dist A.length).map (shiftObj s.old.length A.length) = _
      rw [h.dist, remove_shift]
      rfl

theorem inv_step {s : State N G} {L L' : List (Live N G)} (h : Inv s L) {op : Op N G} {e : Option Err} (hs : Spec L op L' e) :
    Inv (step s op).1 L' ∧ (step s op).2 = e := by
  cases hs with
  | robot =>
    refine ⟨⟨rfl, by simp, ?_, ?_, prob_reset _⟩, rfl⟩
    · show s.col = _
      rw [h.col]; rfl
    · show s.dist = _
      rw [h.dist]; rfl
  | @add _ n g c d hn =>
    simp only [step, State.add, inv_id_none h hn]
    rw [if_neg (fun hh => h.prob hh.2)]
    have hlen : s.cur.length = L.length := by rw [h.cur, List.length_map]
    refine ⟨⟨?_, ?_, ?_, ?_, ?_⟩, rfl⟩
    · show s.cur ++ [(n, g)] = _
      rw [h.cur]; simp
    · rw [List.map_append, List.nodup_append]
      refine ⟨h.nodup, by simp, ?_⟩
      intro a ha b hb
      obtain ⟨x, hx, rfl⟩ := List.mem_map.1 ha
      simp only [List.map_cons, List.map_nil, List.mem_singleton] at hb
      rw [hb]
      exact hn x hx
    · show (if c = true then s.col ++ [⟨s.old.length, s.cur.length⟩] else s.col) = _
      rw [h.col, hlen, ranks_append]
      cases c <;> simp [ranks]
    · show (if d = true then s.dist ++ [⟨s.old.length, s.cur.length⟩] else s.dist) = _
      rw [h.dist, hlen, ranks_append]
      cases d <;> simp [ranks]
    · show Option.map _ s.prob ≠ none
      cases hp : s.prob with
      | none => exact absurd hp h.prob
      | some p => simp
  | addThrows x hx hxn =>
    subst hxn
    obtain ⟨A, B, rfl⟩ := List.append_of_mem hx
    simp only [step, State.add, inv_id_some h]
    exact ⟨h, trivial⟩
  | remove x => exact inv_remove h
  | removeThrows hn =>
    simp only [step, State.remove, inv_id_none h hn]
    exact ⟨h, trivial⟩
  | cut x =>
    simp only [step, inv_id_some h]
    exact inv_remove h
  | @cutKeep A B x g =>
    simp only [step, inv_id_some h]
    refine ⟨⟨?_, ?_, ?_, ?_, h.prob⟩, trivial⟩
    · show s.cur.modify A.length (fun y => (y.1, g)) = _
      rw [h.cur, List.map_append, List.map_cons, List.map_append, List.map_cons]
      have : ∀ (l : List (N × G)) (y : N × G) (r : List (N × G)) (k : Nat), k = l.length →
          (l ++ y :: r).modify k (fun y => (y.1, g)) = l ++ (y.1, g) :: r := by
        intro l
        induction l with
        | nil => rintro y r k rfl; rfl
        | cons z l ih => rintro y r k rfl; simp [ih]
      exact this _ _ _ _ (by simp)
    · have := h.nodup
      simp only [List.map_append, List.map_cons] at this ⊢
      exact this
    · show s.col = _
      rw [h.col, ranks_append, ranks_append, ranks, ranks]
    · show s.dist = _
      rw [h.dist, ranks_append, ranks_append, ranks, ranks]
  | cutThrows hn =>
    simp only [step, inv_id_none h hn]
    exact ⟨h, trivial⟩
  | pathValidationType =>
    refine ⟨inv_congr h rfl rfl rfl rfl ?_, rfl⟩
    show Option.map _ s.prob ≠ none
    cases hp : s.prob with
    | none => exact absurd hp h.prob
    | some p => simp
  | addConfigValidation =>
    simp only [step]
    cases hp : s.prob with
    | none => exact absurd hp h.prob
    | some p => exact ⟨inv_congr h rfl rfl rfl rfl (by simp), rfl⟩
  | clearConfigValidations =>
    simp only [step]
    cases hp : s.prob with
    | none => exact absurd hp h.prob
    | some p => exact ⟨inv_congr h rfl rfl rfl rfl (by simp), rfl⟩
  | initValidations =>
    simp only [step]
    cases hp : s.prob with
    | none => exact absurd hp h.prob
    | some p => exact ⟨inv_congr h rfl rfl rfl rfl (by simp), rfl⟩
  | initConfigValidation =>
    simp only [step]
    cases hp : s.prob with
    | none => exact absurd hp h.prob
    | some p => exact ⟨inv_congr h rfl rfl rfl rfl (by simp), rfl⟩
  | resetProblem => exact ⟨inv_congr h rfl rfl rfl rfl (prob_reset _), rfl⟩

theorem run_inv {s : State N G} {L : List (Live N G)} (h : Run s L) : Inv s L := by
  induction h with
  | start => exact ⟨rfl, by simp, rfl, rfl, prob_reset _⟩
  | step _ op hs ih => exact (inv_step ih hs).1

/-- C57: after every history that sets the robot first, and again only when no obstacle is registered: calls throw as specified; names are
unique; collision and distance obstacles are the registered ones with this flag, in order of addition, each entry giving the name and the
geometry registered under it; `obstacle (name)` too. -/
theorem C57_registry {s : State N G} {L : List (Live N G)} (h : Run s L) :
    (∀ op L' e, Spec L op L' e → (step s op).2 = e) ∧
    (L.map (·.name)).Nodup ∧
    s.colSeen = (L.filter (·.col)).map (fun x => some (x.name, x.geom)) ∧
    s.distSeen = (L.filter (·.dist)).map (fun x => some (x.name, x.geom)) ∧
    (∀ x ∈ L, s.obstacle x.name = some (x.name, x.geom)) ∧
    (∀ n, (∀ x ∈ L, x.name ≠ n) → s.obstacle n = none) := by
  have hi := run_inv h
  have hder : ∀ i, s.deref ⟨s.old.length, i⟩ = (L[i]?).map (fun x => (x.name, x.geom)) := by
    intro i
    simp only [State.deref]
    rw [List.getElem?_append_right (Nat.le_refl _)]
    simp [hi.cur]
  have hseen : ∀ (f : Live N G → Bool), ((ranks f L).map (fun i => (⟨s.old.length, i⟩ : Obj))).map s.deref =
      (L.filter f).map (fun x => some (x.name, x.geom)) := by
    intro f
    rw [List.map_map]
    have h1 : (L.filter f).map (fun x => some (x.name, x.geom)) = ((L.filter f).map some).map (Option.map (fun x => (x.name, x.geom))) := by
      rw [List.map_map]; rfl
    rw [h1, ← ranks_get, List.map_map]
    apply List.map_congr_left
    intro i _
    exact hder i
  refine ⟨fun op L' e hs => (inv_step hi hs).2, hi.nodup, ?_, ?_, ?_, ?_⟩
  · unfold State.colSeen; rw [hi.col]; exact hseen _
  · unfold State.distSeen; rw [hi.dist]; exact hseen _
  · intro x hx
    obtain ⟨A, B, rfl⟩ := List.append_of_mem hx
    unfold State.obstacle
    rw [inv_id_some hi, Option.bind_some, hder]
    simp
  · intro n hn
    unfold State.obstacle
    rw [inv_id_none hi hn]
    rfl

/-- `Spec` has a result for every call except setting the robot when obstacles are registered. -/
theorem C57_defined (L : List (Live N G)) (op : Op N G) (h : op = .robot → L = []) : ∃ L' e, Spec L op L' e := by
  have key : ∀ n, (∀ x ∈ L, x.name ≠ n) ∨ ∃ A x B, L = A ++ x :: B ∧ x.name = n := by
    intro n
    by_cases hn : ∃ x ∈ L, x.name = n
    · obtain ⟨x, hx, hxn⟩ := hn
      obtain ⟨A, B, rfl⟩ := List.append_of_mem hx
      exact Or.inr ⟨A, x, B, rfl, hxn⟩
    · push Not at hn
      exact Or.inl hn
  cases op with
  | robot => rw [h rfl]; exact ⟨_, _, .robot⟩
  | add n g c d =>
    rcases key n with hn | ⟨A, x, B, rfl, rfl⟩
    · exact ⟨_, _, .add hn⟩
    · exact ⟨_, _, .addThrows x (by simp) rfl⟩
  | remove n =>
    rcases key n with hn | ⟨A, x, B, rfl, rfl⟩
    · exact ⟨_, _, .removeThrows hn⟩
    · exact ⟨_, _, .remove x⟩
  | cut n r =>
    rcases key n with hn | ⟨A, x, B, rfl, rfl⟩
    · exact ⟨_, _, .cutThrows hn⟩
    · cases r with
      | none => exact ⟨_, _, .cut x⟩
      | some g => exact ⟨_, _, .cutKeep x g⟩
  | pathValidationType => exact ⟨_, _, .pathValidationType L⟩
  | addConfigValidation => exact ⟨_, _, .addConfigValidation L⟩
  | clearConfigValidations => exact ⟨_, _, .clearConfigValidations L⟩
  | initValidations => exact ⟨_, _, .initValidations L⟩
  | initConfigValidation => exact ⟨_, _, .initConfigValidation L⟩
  | resetProblem => exact ⟨_, _, .resetProblem L⟩

/-! ## Obstacles known to the validations -/

/-- Every collision obstacle of the solver is known to the problem, to its path validation and to each of its config validations. -/
def Covered (s : State N G) : Prop :=
  ∀ p, s.prob = some p → ∀ o ∈ s.col, o ∈ p.obs ∧ o ∈ p.pv ∧ ∀ v ∈ p.cvs, o ∈ v

theorem fold_add (l : List Obj) (p : Prob) : l.foldl Prob.addObstacle p =
    ⟨p.obs ++ l, p.pv ++ l, p.cvs.map (· ++ l), p.dbo⟩ := by
  induction l generalizing p with
  | nil => cases p; simp
  | cons o l ih =>
    rw [List.foldl_cons, ih]
    simp [Prob.addObstacle]

theorem covered_set (p : Prob) (l : List Obj) : ∀ o ∈ l, o ∈ (p.collisionObstacles l).obs ∧ o ∈ (p.collisionObstacles l).pv ∧
    ∀ v ∈ (p.collisionObstacles l).cvs, o ∈ v := by
  intro o ho
  unfold Prob.collisionObstacles
  rw [fold_add]
  refine ⟨by simp [ho], by simp [ho], fun v hv => ?_⟩
  obtain ⟨w, _, rfl⟩ := List.mem_map.1 hv
  simp [ho]

theorem covered_reset (s : State N G) : Covered s.resetProblem := by
  intro p hp o ho
  simp only [State.resetProblem, Option.some.injEq] at hp
  rw [← hp]
  exact covered_set _ s.col o ho

/-- C74: after every history of calls other than `initConfigValidation` alone (see the counterexample), including the ones with exceptions
and with several robots, every collision obstacle of the solver is known to the problem, its path validation and all its config validations. -/
theorem C74_covered (ops : List (Op N G)) (hops : .initConfigValidation ∉ ops) : Covered (exec (State.init (N := N) (G := G)) ops) := by
  have key : ∀ (ops : List (Op N G)) (s : State N G), .initConfigValidation ∉ ops → Covered s → Covered (exec s ops) := by
    intro ops
    induction ops with
    | nil => intro s _ h; exact h
    | cons op ops ih =>
      intro s hops h
      refine ih _ (fun hm => hops (by simp [hm])) ?_
      have hrem : ∀ n, Covered (s.remove n).1 := by
        intro n
        unfold State.remove
        cases hid : s.id n with
        | none => exact h
        | some id =>
          dsimp only
          cases hp : s.prob with
          | none => intro p hp'; simp at hp'
          | some p => exact covered_reset _
      cases op with
      | robot => exact covered_reset _
      | add n g c d =>
        simp only [step, State.add]
        cases hid : s.id n with
        | some i => exact h
        | none =>
          dsimp only
          by_cases hc : c = true ∧ s.prob = none
          · rw [if_pos hc]
            intro p hp
            simp [hc.2] at hp
          · rw [if_neg hc]
            intro p hp o ho
            cases hp0 : s.prob with
            | none => simp [hp0] at hp
            | some p0 =>
              simp only [hp0, Option.map_some, Option.some.injEq] at hp
              rw [← hp]
              simp only [Prob.addObstacle]
              have ho' : o ∈ s.col ∨ o = ⟨s.old.length, s.cur.length⟩ := by
                cases c with
                | true => simpa using ho
                | false => left; simpa using ho
              rcases ho' with ho' | rfl
              · obtain ⟨k1, k2, k3⟩ := h p0 hp0 o ho'
                refine ⟨by simp [k1], by simp [k2], fun v hv => ?_⟩
                obtain ⟨w, hw, rfl⟩ := List.mem_map.1 hv
                simp [k3 w hw]
              · refine ⟨by simp, by simp, fun v hv => ?_⟩
                obtain ⟨w, hw, rfl⟩ := List.mem_map.1 hv
                simp
      | remove n => exact hrem n
      | cut n r =>
        simp only [step]
        cases hid : s.id n with
        | none => exact h
        | some id => cases r with
          | none => exact hrem n
          | some g => exact h
      | pathValidationType =>
        intro p hp o ho
        cases hp0 : s.prob with
        | none => simp [step, hp0] at hp
        | some p0 =>
          simp only [step, hp0, Option.map_some, Option.some.injEq] at hp
          rw [← hp]
          obtain ⟨k1, k2, k3⟩ := h p0 hp0 o ho
          exact ⟨k1, k1, k3⟩
      | addConfigValidation =>
        simp only [step]
        cases hp0 : s.prob with
        | none => intro p hp; simp at hp
        | some p0 =>
          intro p hp o ho
          simp only [Option.some.injEq] at hp
          rw [← hp]
          exact covered_set _ s.col o ho
      | clearConfigValidations =>
        simp only [step]
        cases hp0 : s.prob with
        | none => intro p hp; simp at hp
        | some p0 =>
          intro p hp o ho
          simp only [Option.some.injEq] at hp
          rw [← hp]
          obtain ⟨k1, k2, k3⟩ := h p0 hp0 o ho
          exact ⟨k1, k2, by simp⟩
      | initValidations =>
        simp only [step]
        cases hp0 : s.prob with
        | none => intro p hp; simp [hp0] at hp
        | some p0 =>
          intro p hp o ho
          simp only [Option.some.injEq] at hp
          rw [← hp]
          exact covered_set _ s.col o ho
      | initConfigValidation => exact absurd (by simp) hops
      | resetProblem => exact covered_reset _
  exact key ops _ hops (by intro p hp; simp [State.init] at hp)

/-! ## Witnesses -/

example : Run (exec (State.init (N := Nat) (G := Nat)) [.robot, .add 7 70 true false, .add 8 80 true true, .remove 7])
    [⟨8, 80, true, true⟩] :=
  Run.step (L := [] ++ ⟨7, 70, true, false⟩ :: [⟨8, 80, true, true⟩])
    (Run.step (Run.step .start (.add 7 70 true false) (.add (by simp))) (.add 8 80 true true) (.add (by simp)))
    (.remove 7) (.remove ⟨7, 70, true, false⟩)

/-- C57: setting the robot again empties the registry of names but not the lists of obstacles. -/
theorem C57_robot_counterexample :
    (exec (State.init (N := Nat) (G := Nat)) [.robot, .add 7 70 true false, .robot]).colSeen = [some (7, 70)] ∧
    (exec (State.init (N := Nat) (G := Nat)) [.robot, .add 7 70 true false, .robot]).obstacle 7 = none ∧
    (step (exec (State.init (N := Nat) (G := Nat)) [.robot, .add 7 70 true false, .robot]) (.remove 7)).2 = some .invalid := by decide

/-- C57: then the removal of a new obstacle removes the old one from the list and leaves the new one. -/
theorem C57_robot_remove_counterexample :
    (exec (State.init (N := Nat) (G := Nat)) [.robot, .add 7 70 true false, .robot, .add 8 80 true false, .add 9 90 true false]).colSeen =
      [some (7, 70), some (8, 80), some (9, 90)] ∧
    (exec (State.init (N := Nat) (G := Nat))
      [.robot, .add 7 70 true false, .robot, .add 8 80 true false, .add 9 90 true false, .remove 8]).colSeen =
      [some (9, 90), some (9, 90)] := by decide

/-- C57: an obstacle added before the robot is set throws but is in the list, and stays there when the robot is set. -/
theorem C57_no_robot_counterexample :
    (step (State.init (N := Nat) (G := Nat)) (.add 7 70 true true)).2 = some .runtime ∧
    (exec (State.init (N := Nat) (G := Nat)) [.add 7 70 true true, .robot]).colSeen = [some (7, 70)] ∧
    (exec (State.init (N := Nat) (G := Nat)) [.add 7 70 true true, .robot]).distSeen = [] := by decide

/-- C74: `initConfigValidation`, a public function, makes config validations that do not know the obstacles. -/
theorem C74_init_counterexample :
    (exec (State.init (N := Nat) (G := Nat)) [.robot, .add 7 70 true true, .initConfigValidation]).prob =
      some ⟨[⟨1, 0⟩], [⟨1, 0⟩], [[], []], [⟨1, 0⟩]⟩ := by decide

/-- C74: an obstacle that is not a collision obstacle is given to the validations, until the problem is reset; a collision obstacle that is
not a distance obstacle is given to the computation of distances. -/
theorem C74_flags_counterexample :
    (exec (State.init (N := Nat) (G := Nat)) [.robot, .add 7 70 false true, .add 8 80 true false]).prob =
      some ⟨[⟨1, 0⟩, ⟨1, 1⟩], [⟨1, 0⟩, ⟨1, 1⟩], [[⟨1, 0⟩, ⟨1, 1⟩], [⟨1, 0⟩, ⟨1, 1⟩]], [⟨1, 0⟩, ⟨1, 1⟩]⟩ ∧
    (exec (State.init (N := Nat) (G := Nat)) [.robot, .add 7 70 false true, .add 8 80 true false, .resetProblem]).prob =
      some ⟨[⟨1, 1⟩], [⟨1, 1⟩], [[⟨1, 1⟩], [⟨1, 1⟩]], [⟨1, 0⟩]⟩ := by decide

/-- C74: obstacles are given several times to the validations. -/
theorem C74_duplicate_counterexample :
    (exec (State.init (N := Nat) (G := Nat)) [.robot, .add 7 70 true true, .initValidations]).prob =
      some ⟨[⟨1, 0⟩], [⟨1, 0⟩, ⟨1, 0⟩], [[⟨1, 0⟩], [⟨1, 0⟩]], [⟨1, 0⟩]⟩ := by decide

end Verif.Solver
