import Verif.Obstacles.Continuous
import Mathlib.Data.List.Nodup
set_option linter.unusedSectionVars false

/-!
# Removing an obstacle from a joint by name (C155)

`ProblemSolver::removeObstacleFromJoint` finds a joint and an obstacle by name and asks the validations of the problem to forget the pairs
between them.  An obstacle is a `CollisionObject`: an object of the heap with an address, and an index in the geometric model of the obstacles.
`obstacle (name)` makes another `CollisionObject` with the same index.  `ObstacleUser` compares the geometries, `SolidSolidCollision` compares
the shared pointers.
-/
namespace Verif.ByName
open Verif.Obst (Out)

/-- What `&object->pinocchio ()` distinguishes: the geometries of the robot and those of the obstacles, by index in their model. -/
inductive Geo where
  | robot (g : Nat)
  | obst (i : Nat)
deriving DecidableEq, Repr

/-- What `==` between shared pointers to objects distinguishes: objects of the bodies of the robot, objects made by the solver by address. -/
inductive Ptr where
  | robot (g : Nat)
  | heap (a : Nat)
deriving DecidableEq, Repr

/-- A `CollisionObject` made by the solver: its address and `indexInModel ()`. -/
structure Ref where
  addr : Nat
  geo : Nat
deriving DecidableEq, Repr

/-- A joint of the robot: name, index and objects of its body. -/
structure J (N : Type) where
  name : N
  idx : Int
  body : Option (List Nat)

def J.objs {N : Type} (j : J N) : List Nat := j.body.getD []

/-- The joint as `ObstacleUser` sees it. -/
def J.user {N : Type} (j : J N) : Obst.Joint Geo := .mk (j.objs.map Geo.robot) []

/-- The joint as `ContinuousValidation` sees it. -/
def J.cont {N : Type} (j : J N) : Int × Option (List Ptr) := (j.idx, j.body.map (List.map Ptr.robot))

/-- The robot and the validations that are made for it, before obstacles are added: a `CollisionValidation`
(src/collision-validation.cc) and a continuous validation (src/continuous-validation.cc) with the pairs of bodies of the robot.  `jidx` is the index of
the joint of each object of the robot. -/
structure Env (N Q : Type) where
  joints : List (J N)
  jidx : Nat → Int
  user : Obst.St Geo Q
  cont : Obst.Cont.St Ptr Q
  dflt : Q

/-- The registered path validations, as far as obstacles matter: problem-solver.cc:256-266.  `Discretized` and `DiscretizedCollision` (and with
joint bounds) have one `CollisionValidation`; `Progressive` and `Dichotomy` are continuous; `NoValidation` and `DiscretizedJointBound` know no
obstacle. -/
inductive Kind where
  | discretized | continuous | blind
deriving DecidableEq, Repr

inductive PVal (Q : Type) where
  | user (s : Obst.St Geo Q)
  | cont (s : Obst.Cont.St Ptr Q)
  | blind

/-- Members of the solver and of its problem: names of the geometries of `obstacleModel_`, number of objects made so far,
`collisionObstacles_`, `pathValidationType_`, number of `configValidationTypes_` that make a `CollisionValidation`; the list of obstacles
of the problem, its path validation, its config validations that use obstacles.  `distanceObstacles_` are not modelled. -/
structure St (N Q : Type) where
  names : List N
  made : Nat
  col : List Ref
  kind : Kind
  types : Nat
  obs : List Ref
  pv : PVal Q
  cvs : List (Obst.St Geo Q)

inductive Err where
  | runtime | invalid | ub
deriving DecidableEq, Repr

section
variable {N Q : Type} [DecidableEq N]

/-- `addObstacle` of the path validation: obstacle-user.cc:54-59, continuous-validation.cc:103-118. -/
def PVal.add (E : Env N Q) (o : Ref) : PVal Q → PVal Q
  | .user s => .user (Obst.addObstacle (E.joints.map J.user) (.obst o.geo) s)
  | .cont s => .cont (Obst.Cont.addObstacle E.dflt (E.joints.map J.cont) (.heap o.addr) s)
  | .blind => .blind

/-- `Problem::addObstacle`: problem.cc:192-203; `ObstacleUserVector::addObstacle`: obstacle-user.hh:114-120. -/
def St.pbAdd (E : Env N Q) (s : St N Q) (o : Ref) : St N Q :=
  { s with
    obs := s.obs ++ [o]
    pv := s.pv.add E o
    cvs := s.cvs.map (Obst.addObstacle (E.joints.map J.user) (.obst o.geo)) }

/-- `Problem::collisionObstacles (list)`: problem.cc:181-188. -/
def St.pbObstacles (E : Env N Q) (s : St N Q) (l : List Ref) : St N Q := l.foldl (St.pbAdd E) { s with obs := [] }

/-- A new path validation of the chosen type: problem-solver.cc:391-392. -/
def newPv (E : Env N Q) : Kind → PVal Q
  | .discretized => .user E.user
  | .continuous => .cont E.cont
  | .blind => .blind

/-- `initPathValidation`, `setObstaclesToPathValidation`: problem-solver.cc:376-395. -/
def St.initPv (E : Env N Q) (s : St N Q) : St N Q := { s with pv := s.obs.foldl (fun p o => p.add E o) (newPv E s.kind) }

/-- `initConfigValidation`: problem-solver.cc:397-408. -/
def St.initCvs (E : Env N Q) (s : St N Q) : St N Q := { s with cvs := List.replicate s.types E.user }

/-- `resetProblem`, `initializeProblem`: problem-solver.cc:612-631. -/
def St.resetProblem (E : Env N Q) (s : St N Q) : St N Q := ((({ s with obs := [] }).initPv E).initCvs E).pbObstacles E s.col

/-- `addObstacle (name, geometry, pose, collision, distance)`: problem-solver.cc:862-901. -/
def St.add (E : Env N Q) (s : St N Q) (n : N) (collision : Bool) : St N Q × Option Err :=
  match s.names.findIdx? (fun m => m = n) with
  | some _ => (s, some .runtime)
  | none =>
    let o : Ref := ⟨s.made, s.names.length⟩
    let s1 := { s with names := s.names ++ [n], made := s.made + 1, col := if collision = true then s.col ++ [o] else s.col }
    (s1.pbAdd E o, none)

/-- The loops problem-solver.cc:955-966: a new object for each obstacle after the removed one. -/
def renew (id : Nat) : Nat → List Ref → List Ref × Nat
  | made, [] => ([], made)
  | made, o :: l =>
    if id < o.geo then let r := renew id (made + 1) l; (⟨made, o.geo - 1⟩ :: r.1, r.2)
    else let r := renew id made l; (o :: r.1, r.2)

/-- `removeObstacle`: problem-solver.cc:942-969, `remove`: 111-116. -/
def St.remove (E : Env N Q) (s : St N Q) (n : N) : St N Q × Option Err :=
  match s.names.findIdx? (fun m => m = n) with
  | none => (s, some .invalid)
  | some id =>
    let r := renew id s.made (s.col.eraseP (fun o => o.geo = id))
    (({ s with names := s.names.eraseIdx id, col := r.1, made := r.2 } : St N Q).resetProblem E, none)

/-- `removeObstacleFromJoint` of the path validation; `Problem::removeObstacleFromJoint`: problem.cc:207-211. -/
def PVal.removeFromJoint (j : J N) (o : Ref) : PVal Q → Out (PVal Q)
  | .user s => match Obst.removeObstacleFromJoint j.user (.obst o.geo) s with
    | .ok s => .ok (.user s)
    | .thrown s => .thrown (.user s)
    | .ub => .ub
  | .cont s => match Obst.Cont.removeObstacleFromJoint j.idx (.heap o.addr) s with
    | .ok s => .ok (.cont s)
    | .thrown s => .thrown (.cont s)
    | .ub => .ub
  | .blind => .ok .blind

/-- `ObstacleUserVector::removeObstacleFromJoint` of the config validations: obstacle-user.hh:129-136; an exception leaves the following ones. -/
def cvsRemove (j : J N) (o : Ref) : List (Obst.St Geo Q) → Out (List (Obst.St Geo Q))
  | [] => .ok []
  | v :: l => match Obst.removeObstacleFromJoint j.user (.obst o.geo) v with
    | .ub => .ub
    | .thrown v => .thrown (v :: l)
    | .ok v => match cvsRemove j o l with
      | .ok l => .ok (v :: l)
      | .thrown l => .thrown (v :: l)
      | .ub => .ub

/-- `ProblemSolver::removeObstacleFromJoint (first, second)`: problem-solver.cc:992-1010, where the first parameter is called `obstacleName` and the
second one `jointName`.  `getJointByName` throws if there is no such joint, `obstacle` (1016-1023) if there is no such obstacle. -/
def St.removeFromJoint (E : Env N Q) (s : St N Q) (first second : N) : St N Q × Option Err :=
  match E.joints.find? (fun j => j.name = second) with
  | none => (s, some .runtime)
  | some j => match s.names.findIdx? (fun m => m = first) with
    | none => (s, some .invalid)
    | some i =>
      let o : Ref := ⟨s.made, i⟩
      let s1 := { s with made := s.made + 1 }
      match s1.pv.removeFromJoint j o with
      | .ub => (s1, some .ub)
      | .thrown p => ({ s1 with pv := p }, some .runtime)
      | .ok p => match cvsRemove j o s1.cvs with
        | .ub => ({ s1 with pv := p }, some .ub)
        | .thrown l => ({ s1 with pv := p, cvs := l }, some .runtime)
        | .ok l => ({ s1 with pv := p, cvs := l }, none)

/-- Joint of a geometry; obstacles are fixed to joint 0. -/
def Env.joint (E : Env N Q) : Geo → Int
  | .robot g => E.jidx g
  | .obst _ => 0

/-- `filterCollisionPairs` of the path validation: obstacle-user.cc:120-164, continuous-validation.cc:265-299; `mot` is the matrix of relative motions;
`none` if the loop does not end. -/
def PVal.filter (E : Env N Q) (mot : Int → Int → Obst.Motion) : PVal Q → Option (PVal Q)
  | .user s => match Obst.filterCollisionPairs (fun p => mot (E.joint p.1) (E.joint p.2)) s with
    | .ok s => some (.user s)
    | _ => none
  | .cont s => (Obst.Cont.filterLoop mot s.ivs.length 0 s).map PVal.cont
  | .blind => some .blind

/-- `ObstacleUserVector::filterCollisionPairs`: obstacle-user.hh:143-149. -/
def cvsFilter (E : Env N Q) (mot : Int → Int → Obst.Motion) : List (Obst.St Geo Q) → Option (List (Obst.St Geo Q))
  | [] => some []
  | v :: l => match Obst.filterCollisionPairs (fun p => mot (E.joint p.1) (E.joint p.2)) v with
    | .ok v => (cvsFilter E mot l).map (v :: ·)
    | _ => none

/-- `ProblemSolver::filterCollisionPairs`: problem-solver.cc:1012-1014; `Problem::filterCollisionPairs`: problem.cc:220-233. -/
def St.filter (E : Env N Q) (s : St N Q) (mot : Int → Int → Obst.Motion) : St N Q × Option Err :=
  match s.pv.filter E mot with
  | none => (s, some .ub)
  | some p => match cvsFilter E mot s.cvs with
    | none => (s, some .ub)
    | some l => ({ s with pv := p, cvs := l }, none)

/-- Calls of a user. -/
inductive Op (N : Type) where
  | add (n : N) (collision : Bool)
  | remove (n : N)
  | removeFromJoint (first second : N)
  | filter (mot : Int → Int → Obst.Motion)
  | pathValidationType (k : Kind)
  | addConfigValidation
  | initValidations
  | resetProblem

/-- One call.  `pathValidationType`: problem-solver.cc:360-373; `addConfigValidation`: 435-447; `initValidations`: 410-414. -/
def step (E : Env N Q) (s : St N Q) : Op N → St N Q × Option Err
  | .add n c => s.add E n c
  | .remove n => s.remove E n
  | .removeFromJoint a b => s.removeFromJoint E a b
  | .filter mot => s.filter E mot
  | .pathValidationType k => (({ s with kind := k } : St N Q).initPv E, none)
  | .addConfigValidation => ((({ s with types := s.types + 1 } : St N Q).initCvs E).pbObstacles E s.col, none)
  | .initValidations => (((s.initPv E).initCvs E).pbObstacles E s.col, none)
  | .resetProblem => (s.resetProblem E, none)

/-- After the constructor and `robot (device)`: problem-solver.cc:186, 464-475. -/
def St.start (E : Env N Q) : St N Q :=
  St.resetProblem E { names := [], made := 0, col := [], kind := .discretized, types := 1, obs := [], pv := .blind, cvs := [] }

/-! ## Specification -/

/-- Histories of calls; exceptions are caught. -/
inductive Reach (E : Env N Q) : St N Q → Prop
  | start : Reach E (St.start E)
  | step {s : St N Q} (h : Reach E s) (op : Op N) : Reach E (step E s op).1

/-- The robot: objects of a body are distinct; before obstacles are added the validations know objects of the robot only. -/
structure Env.Ok (E : Env N Q) : Prop where
  nodup : ∀ j ∈ E.joints, j.objs.Nodup
  user : Obst.Aligned E.user
  cont : Obst.Cont.Aligned E.cont
  pairs : ∀ x ∈ E.cont.ivs, ∃ b, x = Obst.Cont.IV.pair b
  robot : ∀ b, Obst.Cont.IV.pair b ∈ E.cont.ivs → ∀ p ∈ b.prs, ∃ g, p.2 = Ptr.robot g

/-- Nothing that a user or a planner can observe differs. -/
structure Same (s t : St N Q) : Prop where
  names : t.names = s.names
  col : t.col = s.col
  kind : t.kind = s.kind
  types : t.types = s.types
  obs : t.obs = s.obs
  pv : t.pv = s.pv
  cvs : t.cvs = s.cvs

/-- The validations of the problem that compare geometries. -/
def St.vals (s : St N Q) : List (Obst.St Geo Q) := (match s.pv with | .user v => [v] | _ => []) ++ s.cvs

/-- Object `g` of the robot is tested against obstacle number `i`. -/
def Tested (v : Obst.St Geo Q) (g i : Nat) : Prop := ∃ q, ((Geo.robot g, Geo.obst i), q) ∈ v.c

/-- `v'` is `v` without the tests between the objects of `j` and obstacle number `i`. -/
structure Without (j : J N) (i : Nat) (v v' : Obst.St Geo Q) : Prop where
  c : v'.c = v.c.filter (fun x => ¬ (x.1.2 = Geo.obst i ∧ ∃ g ∈ j.objs, x.1.1 = Geo.robot g))
  p : v'.p = v.p
  d : v'.d = v.d

/-! ## Proofs -/

/-- The pairs of a path validation know only objects made before `n`. -/
def PVal.Old (n : Nat) : PVal Q → Prop
  | .user v => Obst.Aligned v
  | .cont c => Obst.Cont.Aligned c ∧ (∀ b, Obst.Cont.IV.pair b ∈ c.ivs → ∀ p ∈ b.prs, ∀ a, p.2 = Ptr.heap a → a < n) ∧
      ∀ x ∈ c.ivs, ∃ b, x = Obst.Cont.IV.pair b
  | .blind => True

structure Inv (s : St N Q) : Prop where
  col : ∀ o ∈ s.col, o.addr < s.made
  obs : ∀ o ∈ s.obs, o.addr < s.made
  pv : s.pv.Old s.made
  cvs : ∀ v ∈ s.cvs, Obst.Aligned v

theorem old_mono {n m : Nat} (h : n ≤ m) {p : PVal Q} (hp : p.Old n) : p.Old m := by
  cases p with
  | user v => exact hp
  | blind => trivial
  | cont c => exact ⟨hp.1, fun b hb q hq a ha => lt_of_lt_of_le (hp.2.1 b hb q hq a ha) h, hp.2.2⟩

theorem old_add (E : Env N Q) {n : Nat} {o : Ref} (ho : o.addr < n) {p : PVal Q} (hp : p.Old n) : (p.add E o).Old n := by
  cases p with
  | user v => exact (Obst.C38_add _ _ _ hp).1
  | blind => trivial
  | cont c =>
    obtain ⟨h1, h2, h3⟩ := hp
    refine ⟨⟨?_, ?_⟩, ?_, ?_⟩
    · intro b hb
      rw [Obst.Cont.addObstacle_ivs] at hb
      rcases List.mem_append.1 hb with hb | hb
      · exact h1.1 b hb
      · obtain ⟨j, -, hj⟩ := List.mem_filterMap.1 hb
        cases hjb : j.2 with
        | none => simp [hjb] at hj
        | some l =>
          simp only [hjb, Option.map_some, Option.some.injEq, Obst.Cont.IV.pair.injEq] at hj
          subst hj
          simp [Obst.Cont.BPair.Aligned]
    · rw [Obst.Cont.addObstacle_ivs]; exact h1.2
    · intro b hb q hq a ha
      rw [Obst.Cont.addObstacle_ivs] at hb
      rcases List.mem_append.1 hb with hb | hb
      · exact h2 b hb q hq a ha
      · obtain ⟨j, -, hj⟩ := List.mem_filterMap.1 hb
        cases hjb : j.2 with
        | none => simp [hjb] at hj
        | some l =>
          simp only [hjb, Option.map_some, Option.some.injEq, Obst.Cont.IV.pair.injEq] at hj
          subst hj
          obtain ⟨x, -, rfl⟩ := List.mem_map.1 hq
          simp only [Ptr.heap.injEq] at ha
          omega
    · intro x hx
      rw [Obst.Cont.addObstacle_ivs] at hx
      rcases List.mem_append.1 hx with hx | hx
      · exact h3 x hx
      · obtain ⟨j, -, hj⟩ := List.mem_filterMap.1 hx
        cases hjb : j.2 with
        | none => simp [hjb] at hj
        | some l =>
          simp only [hjb, Option.map_some, Option.some.injEq] at hj
          exact ⟨_, hj.symm⟩

theorem old_fold (E : Env N Q) {n : Nat} (l : List Ref) (hl : ∀ o ∈ l, o.addr < n) {p : PVal Q} (hp : p.Old n) :
    (l.foldl (fun p o => p.add E o) p).Old n := by
  induction l generalizing p with
  | nil => exact hp
  | cons o l ih => exact ih (fun x hx => hl x (by simp [hx])) (old_add E (hl o (by simp)) hp)

theorem old_new {E : Env N Q} (hE : E.Ok) (n : Nat) (k : Kind) : (newPv E k).Old n := by
  cases k with
  | discretized => exact hE.user
  | blind => trivial
  | continuous =>
    refine ⟨hE.cont, fun b hb p hp a ha => ?_, hE.pairs⟩
    obtain ⟨g, hg⟩ := hE.robot b hb p hp
    rw [hg] at ha
    cases ha

theorem inv_pbAdd (E : Env N Q) {s : St N Q} {o : Ref} (ho : o.addr < s.made) (h : Inv s) : Inv (s.pbAdd E o) := by
  refine ⟨h.col, ?_, old_add E ho h.pv, ?_⟩
  · intro x hx
    rcases List.mem_append.1 hx with hx | hx
    · exact h.obs x hx
    · rw [List.mem_singleton.1 hx]; exact ho
  · intro v hv
    obtain ⟨w, hw, rfl⟩ := List.mem_map.1 hv
    exact (Obst.C38_add _ _ _ (h.cvs w hw)).1

theorem inv_fold (E : Env N Q) (l : List Ref) {s : St N Q} (hl : ∀ o ∈ l, o.addr < s.made) (h : Inv s) : Inv (l.foldl (St.pbAdd E) s) := by
  induction l generalizing s with
  | nil => exact h
  | cons o l ih => exact ih (fun x hx => hl x (by simp [hx])) (inv_pbAdd E (hl o (by simp)) h)

theorem inv_obstacles (E : Env N Q) (l : List Ref) {s : St N Q} (hl : ∀ o ∈ l, o.addr < s.made) (h : Inv s) : Inv (s.pbObstacles E l) :=
  inv_fold E l hl ⟨h.col, by simp, h.pv, h.cvs⟩

theorem inv_initPv {E : Env N Q} (hE : E.Ok) {s : St N Q} (hc : ∀ o ∈ s.col, o.addr < s.made) (ho : ∀ o ∈ s.obs, o.addr < s.made)
    (hv : ∀ v ∈ s.cvs, Obst.Aligned v) : Inv (s.initPv E) :=
  ⟨hc, ho, old_fold E _ ho (old_new hE _ _), hv⟩

theorem inv_initCvs {E : Env N Q} (hE : E.Ok) {s : St N Q} (hc : ∀ o ∈ s.col, o.addr < s.made) (ho : ∀ o ∈ s.obs, o.addr < s.made)
    (hp : s.pv.Old s.made) : Inv (s.initCvs E) :=
  ⟨hc, ho, hp, fun v hv => by rw [List.eq_of_mem_replicate hv]; exact hE.user⟩

theorem inv_reset {E : Env N Q} (hE : E.Ok) {s : St N Q} (hc : ∀ o ∈ s.col, o.addr < s.made) : Inv (s.resetProblem E) :=
  inv_obstacles E _ hc (inv_initCvs hE (s := ({ s with obs := [] } : St N Q).initPv E) hc (by simp [St.initPv])
    (old_fold E _ (by simp) (old_new hE _ _)))

theorem renew_spec (id : Nat) (made : Nat) (l : List Ref) (hl : ∀ o ∈ l, o.addr < made) :
    made ≤ (renew id made l).2 ∧ ∀ o ∈ (renew id made l).1, o.addr < (renew id made l).2 := by
  induction l generalizing made with
  | nil => simp [renew]
  | cons o l ih =>
    unfold renew
    split
    · obtain ⟨h1, h2⟩ := ih (made + 1) (fun x hx => lt_trans (hl x (by simp [hx])) (Nat.lt_succ_self _))
      refine ⟨by simp only; omega, ?_⟩
      intro x hx
      rcases List.mem_cons.1 hx with rfl | hx
      · simp only; omega
      · exact h2 x hx
    · obtain ⟨h1, h2⟩ := ih made (fun x hx => hl x (by simp [hx]))
      refine ⟨h1, ?_⟩
      intro x hx
      rcases List.mem_cons.1 hx with rfl | hx
      · exact lt_of_lt_of_le (hl _ (by simp)) h1
      · exact h2 x hx

theorem inner_user (j : J N) : j.user.inner = j.objs.map Geo.robot := rfl

theorem aligned_remove (j : J N) (i : Nat) {v : Obst.St Geo Q} (h : Obst.Aligned v) :
    ∃ v', (Obst.removeObstacleFromJoint j.user (.obst i) v = .ok v' ∨ Obst.removeObstacleFromJoint j.user (.obst i) v = .thrown v') ∧
      Obst.Aligned v' := by
  obtain ⟨v', h1, h2, -⟩ := Obst.removeInner_total (Geo.obst i) j.user.inner v h
  exact ⟨v', h1, h2⟩

theorem cvsRemove_total (j : J N) (o : Ref) (l : List (Obst.St Geo Q)) (h : ∀ v ∈ l, Obst.Aligned v) :
    ∃ l', (cvsRemove j o l = .ok l' ∨ cvsRemove j o l = .thrown l') ∧ ∀ v ∈ l', Obst.Aligned v := by
  induction l with
  | nil => exact ⟨[], Or.inl rfl, by simp⟩
  | cons v l ih =>
    have hl : ∀ w ∈ l, Obst.Aligned w := fun w hw => h w (by simp [hw])
    obtain ⟨l', h1, h2⟩ := ih hl
    obtain ⟨v', h3, h4⟩ := aligned_remove j o.geo (h v (by simp))
    have hc : ∀ (m : List (Obst.St Geo Q)), (∀ w ∈ m, Obst.Aligned w) → ∀ w ∈ v' :: m, Obst.Aligned w := by
      intro m hm w hw
      rcases List.mem_cons.1 hw with rfl | hw
      · exact h4
      · exact hm w hw
    unfold cvsRemove
    rcases h3 with h3 | h3
    · rw [h3]
      rcases h1 with h1 | h1
      · exact ⟨v' :: l', Or.inl (by simp only [h1]), hc _ h2⟩
      · exact ⟨v' :: l', Or.inr (by simp only [h1]), hc _ h2⟩
    · rw [h3]
      exact ⟨v' :: l, Or.inr rfl, hc _ hl⟩

/-- A continuous validation does not know an object that was just made. -/
theorem cont_throws (j : J N) {c : Obst.Cont.St Ptr Q} {n : Nat} (h : (PVal.cont c).Old n) (i : Nat) :
    (PVal.cont c).removeFromJoint j ⟨n, i⟩ = .thrown (.cont c) := by
  obtain ⟨h1, h2, -⟩ := h
  have hx : ¬ ∃ b, Obst.Cont.IV.pair b ∈ c.ivs ∧ Obst.Cont.Concerned j.idx b ∧ ∃ p ∈ b.prs, p.2 = Ptr.heap n := by
    rintro ⟨b, hb, -, p, hp, he⟩
    exact absurd (h2 b hb p hp n he) (lt_irrefl _)
  have := (Obst.Cont.C65_remove_partial j.idx (Ptr.heap n) c h1 (by
    rintro ⟨b, hb, hc, hne, hall⟩
    obtain ⟨p, hp⟩ := List.exists_mem_of_ne_nil _ hne
    exact hx ⟨b, hb, hc, p, hp, hall p hp⟩)).2 hx
  simp only [PVal.removeFromJoint, this]

theorem pv_total (j : J N) {p : PVal Q} {n : Nat} (h : p.Old n) (i : Nat) :
    ∃ p', (p.removeFromJoint j ⟨n, i⟩ = .ok p' ∨ p.removeFromJoint j ⟨n, i⟩ = .thrown p') ∧ p'.Old n := by
  cases p with
  | blind => exact ⟨.blind, Or.inl rfl, trivial⟩
  | cont c => exact ⟨.cont c, Or.inr (cont_throws j h i), h⟩
  | user v =>
    obtain ⟨v', h3, h4⟩ := aligned_remove j i h
    refine ⟨.user v', ?_, h4⟩
    rcases h3 with h3 | h3
    · exact Or.inl (by simp only [PVal.removeFromJoint, h3])
    · exact Or.inr (by simp only [PVal.removeFromJoint, h3])

theorem inv_removeFromJoint (E : Env N Q) {s : St N Q} (h : Inv s) (a b : N) :
    Inv (s.removeFromJoint E a b).1 ∧ (s.removeFromJoint E a b).2 ≠ some .ub := by
  unfold St.removeFromJoint
  cases E.joints.find? (fun j => j.name = b) with
  | none => exact ⟨h, by simp⟩
  | some j =>
    simp only
    cases s.names.findIdx? (fun m => m = a) with
    | none => exact ⟨h, by simp⟩
    | some i =>
      simp only
      obtain ⟨p, hp, hp'⟩ := pv_total j h.pv i
      obtain ⟨l, hl, hl'⟩ := cvsRemove_total j ⟨s.made, i⟩ s.cvs h.cvs
      have hc : ∀ o ∈ s.col, o.addr < s.made + 1 := fun o ho => lt_trans (h.col o ho) (Nat.lt_succ_self _)
      have ho : ∀ o ∈ s.obs, o.addr < s.made + 1 := fun o ho => lt_trans (h.obs o ho) (Nat.lt_succ_self _)
      rcases hp with hp | hp <;> simp only [hp]
      · rcases hl with hl | hl <;> simp only [hl]
        · exact ⟨⟨hc, ho, old_mono (Nat.le_succ _) hp', hl'⟩, by simp⟩
        · exact ⟨⟨hc, ho, old_mono (Nat.le_succ _) hp', hl'⟩, by simp⟩
      · exact ⟨⟨hc, ho, old_mono (Nat.le_succ _) hp', h.cvs⟩, by simp⟩

theorem pv_filter (E : Env N Q) (mot : Int → Int → Obst.Motion) {p : PVal Q} {n : Nat} (h : p.Old n) :
    ∃ p', p.filter E mot = some p' ∧ p'.Old n := by
  cases p with
  | blind => exact ⟨.blind, rfl, trivial⟩
  | user v =>
    obtain ⟨v', h1, h2, -⟩ := Obst.C38_filter (fun p => mot (E.joint p.1) (E.joint p.2)) v h
    exact ⟨.user v', by simp only [PVal.filter, h1], h2⟩
  | cont c =>
    obtain ⟨h1, h2, h3⟩ := h
    have hf := Obst.Cont.C65_filter_partial mot c h3 c.ivs.length (le_refl _)
    refine ⟨.cont { ivs := c.ivs.filter (Obst.Cont.keepIV mot), disabled := c.disabled ++ c.ivs.filterMap (Obst.Cont.droppedOf mot) },
      by simp only [PVal.filter, hf, Option.map_some], ⟨?_, ?_⟩, ?_, ?_⟩
    · exact fun b hb => h1.1 b (List.mem_of_mem_filter hb)
    · intro b hb
      rcases List.mem_append.1 hb with hb | hb
      · exact h1.2 b hb
      · obtain ⟨x, hx, hxb⟩ := List.mem_filterMap.1 hb
        obtain ⟨b', rfl⟩ := h3 x hx
        simp only [Obst.Cont.droppedOf] at hxb
        split at hxb
        · cases hxb; exact h1.1 _ hx
        · cases hxb
    · exact fun b hb => h2 b (List.mem_of_mem_filter hb)
    · exact fun x hx => h3 x (List.mem_of_mem_filter hx)

theorem cvs_filter (E : Env N Q) (mot : Int → Int → Obst.Motion) (l : List (Obst.St Geo Q)) (h : ∀ v ∈ l, Obst.Aligned v) :
    ∃ l', cvsFilter E mot l = some l' ∧ ∀ v ∈ l', Obst.Aligned v := by
  induction l with
  | nil => exact ⟨[], rfl, by simp⟩
  | cons v l ih =>
    obtain ⟨l', h1, h2⟩ := ih (fun w hw => h w (by simp [hw]))
    obtain ⟨v', h3, h4, -⟩ := Obst.C38_filter (fun p => mot (E.joint p.1) (E.joint p.2)) v (h v (by simp))
    refine ⟨v' :: l', by simp only [cvsFilter, h3, h1, Option.map_some], ?_⟩
    intro w hw
    rcases List.mem_cons.1 hw with rfl | hw
    · exact h4
    · exact h2 w hw

theorem inv_filter (E : Env N Q) {s : St N Q} (h : Inv s) (mot : Int → Int → Obst.Motion) :
    Inv (s.filter E mot).1 ∧ (s.filter E mot).2 = none := by
  obtain ⟨p, hp, hp'⟩ := pv_filter E mot h.pv
  obtain ⟨l, hl, hl'⟩ := cvs_filter E mot s.cvs h.cvs
  simp only [St.filter, hp, hl]
  exact ⟨⟨h.col, h.obs, hp', hl'⟩, trivial⟩

theorem inv_step {E : Env N Q} (hE : E.Ok) {s : St N Q} (h : Inv s) (op : Op N) : Inv (step E s op).1 := by
  cases op with
  | add n c =>
    simp only [step, St.add]
    cases s.names.findIdx? (fun m => m = n) with
    | some _ => exact h
    | none =>
      refine inv_pbAdd E (by simp) ⟨?_, fun o ho => lt_trans (h.obs o ho) (Nat.lt_succ_self _), old_mono (Nat.le_succ _) h.pv, h.cvs⟩
      intro o ho
      have h1 : ∀ o ∈ s.col, o.addr < s.made + 1 := fun o ho => lt_trans (h.col o ho) (Nat.lt_succ_self _)
      simp only at ho
      split at ho
      · rcases List.mem_append.1 ho with ho | ho
        · exact h1 o ho
        · rw [List.mem_singleton.1 ho]; simp
      · exact h1 o ho
  | remove n =>
    simp only [step, St.remove]
    cases s.names.findIdx? (fun m => m = n) with
    | none => exact h
    | some id => exact inv_reset hE (renew_spec id s.made _ (fun o ho => h.col o (List.mem_of_mem_eraseP ho))).2
  | removeFromJoint a b => exact (inv_removeFromJoint E h a b).1
  | filter mot => exact (inv_filter E h mot).1
  | pathValidationType k => exact inv_initPv hE h.col h.obs h.cvs
  | addConfigValidation => exact inv_obstacles E _ h.col (inv_initCvs hE h.col h.obs h.pv)
  | initValidations => exact inv_obstacles E _ h.col (inv_initCvs hE (s := s.initPv E) h.col h.obs (inv_initPv hE h.col h.obs h.cvs).pv)
  | resetProblem => exact inv_reset hE h.col

theorem reach_inv {E : Env N Q} (hE : E.Ok) {s : St N Q} (h : Reach E s) : Inv s := by
  induction h with
  | start => exact inv_reset hE (by simp)
  | step _ op ih => exact inv_step hE ih op

/-! ### Continuous validation -/

/-- The code violates C155: after every history, with a continuous path validation the call throws, whatever the names, and changes nothing. -/
theorem C155_continuous_never {E : Env N Q} (hE : E.Ok) {s : St N Q} (h : Reach E s) {c : Obst.Cont.St Ptr Q} (hc : s.pv = .cont c) (a b : N) :
    ∃ s' e, s.removeFromJoint E a b = (s', some e) ∧ e ≠ .ub ∧ Same s s' := by
  have hi := reach_inv hE h
  unfold St.removeFromJoint
  cases E.joints.find? (fun j => j.name = b) with
  | none => exact ⟨s, .runtime, rfl, by simp, ⟨rfl, rfl, rfl, rfl, rfl, rfl, rfl⟩⟩
  | some j =>
    simp only
    cases s.names.findIdx? (fun m => m = a) with
    | none => exact ⟨s, .invalid, rfl, by simp, ⟨rfl, rfl, rfl, rfl, rfl, rfl, rfl⟩⟩
    | some i =>
      have hp := hi.pv
      rw [hc] at hp
      simp only [hc, cont_throws j hp i]
      exact ⟨_, .runtime, rfl, by simp, ⟨rfl, rfl, rfl, rfl, rfl, hc.symm, rfl⟩⟩

/-- The code violates C155: with the arguments in the order of the declaration (joint, obstacle) the call throws and changes nothing if no joint
has the name of the obstacle. -/
theorem C155_declared_order (E : Env N Q) (s : St N Q) (joint obstacle : N) (hn : ∀ j ∈ E.joints, j.name ≠ obstacle) :
    s.removeFromJoint E joint obstacle = (s, some .runtime) := by
  unfold St.removeFromJoint
  have : E.joints.find? (fun j => j.name = obstacle) = none := by
    rw [List.find?_eq_none]
    intro j hj
    simp [hn j hj]
  rw [this]

/-- C155: no undefined behaviour. -/
theorem C155_defined {E : Env N Q} (hE : E.Ok) {s : St N Q} (h : Reach E s) (op : Op N) : (step E s op).2 ≠ some .ub := by
  cases op with
  | add n c =>
    simp only [step, St.add]
    cases s.names.findIdx? (fun m => m = n) <;> simp
  | remove n =>
    simp only [step, St.remove]
    cases s.names.findIdx? (fun m => m = n) <;> simp
  | removeFromJoint a b => exact (inv_removeFromJoint E (reach_inv hE h) a b).2
  | filter mot =>
    show (s.filter E mot).2 ≠ some .ub
    rw [(inv_filter E (reach_inv hE h) mot).2]; simp
  | pathValidationType k => simp [step]
  | addConfigValidation => simp [step]
  | initValidations => simp [step]
  | resetProblem => simp [step]

/-! ### Validations that compare geometries -/

theorem without_iff (j : J N) (i : Nat) (x : (Geo × Geo) × Q) :
    (x.1.2 = Geo.obst i ∧ x.1.1 ∈ j.user.inner) ↔ (x.1.2 = Geo.obst i ∧ ∃ g ∈ j.objs, x.1.1 = Geo.robot g) := by
  rw [inner_user, List.mem_map]
  constructor
  · rintro ⟨h, g, hg, he⟩; exact ⟨h, g, hg, he.symm⟩
  · rintro ⟨h, g, hg, he⟩; exact ⟨h, g, hg, he.symm⟩

theorem nodup_inner {j : J N} (h : j.objs.Nodup) : j.user.inner.Nodup := by
  rw [inner_user]
  exact List.Nodup.map (fun a b hab => by cases hab; rfl) h

theorem user_ok {j : J N} (hj : j.objs.Nodup) (i : Nat) {v : Obst.St Geo Q} (h : Obst.Aligned v) (ht : ∀ g ∈ j.objs, Tested v g i) :
    ∃ v', Obst.removeObstacleFromJoint j.user (.obst i) v = .ok v' ∧ Without j i v v' := by
  obtain ⟨v', h1, h2, h3, h4, h5⟩ := (Obst.C38_remove (Geo.obst i) j.user.inner v h (nodup_inner hj)).1 (by
    intro a ha
    rw [inner_user] at ha
    obtain ⟨g, hg, rfl⟩ := List.mem_map.1 ha
    exact ht g hg)
  refine ⟨v', h1, ⟨?_, h3, h4⟩⟩
  rw [h5]
  refine List.filter_congr (fun x _ => ?_)
  simp only [without_iff]

theorem user_thrown {j : J N} (hj : j.objs.Nodup) (i : Nat) {v : Obst.St Geo Q} (h : Obst.Aligned v) (ht : ∃ g ∈ j.objs, ¬ Tested v g i) :
    ∃ v', Obst.removeObstacleFromJoint j.user (.obst i) v = .thrown v' := by
  obtain ⟨g, hg, hgt⟩ := ht
  obtain ⟨v', h1, -⟩ := (Obst.C38_remove (Geo.obst i) j.user.inner v h (nodup_inner hj)).2
    ⟨Geo.robot g, by rw [inner_user]; exact List.mem_map_of_mem hg, fun q hq => hgt ⟨q, hq⟩⟩
  exact ⟨v', h1⟩

theorem cvs_ok {j : J N} (hj : j.objs.Nodup) (o : Ref) (l : List (Obst.St Geo Q)) (h : ∀ v ∈ l, Obst.Aligned v)
    (ht : ∀ v ∈ l, ∀ g ∈ j.objs, Tested v g o.geo) : ∃ l', cvsRemove j o l = .ok l' ∧ List.Forall₂ (Without j o.geo) l l' := by
  induction l with
  | nil => exact ⟨[], rfl, .nil⟩
  | cons v l ih =>
    obtain ⟨l', h1, h2⟩ := ih (fun w hw => h w (by simp [hw])) (fun w hw => ht w (by simp [hw]))
    obtain ⟨v', h3, h4⟩ := user_ok hj o.geo (h v (by simp)) (ht v (by simp))
    exact ⟨v' :: l', by unfold cvsRemove; simp only [h3, h1], .cons h4 h2⟩

theorem cvs_thrown {j : J N} (hj : j.objs.Nodup) (o : Ref) (l : List (Obst.St Geo Q)) (h : ∀ v ∈ l, Obst.Aligned v)
    (ht : ∃ v ∈ l, ∃ g ∈ j.objs, ¬ Tested v g o.geo) : ∃ l', cvsRemove j o l = .thrown l' := by
  induction l with
  | nil => obtain ⟨v, hv, -⟩ := ht; cases hv
  | cons v l ih =>
    by_cases hv : ∃ g ∈ j.objs, ¬ Tested v g o.geo
    · obtain ⟨v', h1⟩ := user_thrown hj o.geo (h v (by simp)) hv
      exact ⟨v' :: l, by unfold cvsRemove; simp only [h1]⟩
    · push Not at hv
      obtain ⟨w, hw, hg⟩ := ht
      rcases List.mem_cons.1 hw with rfl | hw
      · obtain ⟨g, hg, hn⟩ := hg; exact absurd (hv g hg) hn
      · obtain ⟨l', h1⟩ := ih (fun w hw => h w (by simp [hw])) ⟨w, hw, hg⟩
        obtain ⟨v', h3, -⟩ := user_ok hj o.geo (h v (by simp)) hv
        exact ⟨v' :: l', by unfold cvsRemove; simp only [h3, h1]⟩

/-- C155, partial: after every history, unless the path validation is continuous, with the arguments in the order of the implementation
(obstacle, joint): if every validation of the problem tests every object of the joint against the obstacle, exactly these tests are removed, in
every validation; otherwise the call throws. -/
theorem C155_remove_partial {E : Env N Q} (hE : E.Ok) {s : St N Q} (h : Reach E s) (hc : ∀ c, s.pv ≠ .cont c) {a b : N} {j : J N} {i : Nat}
    (hj : E.joints.find? (fun j => j.name = b) = some j) (hi : s.names.findIdx? (fun m => m = a) = some i) :
    ((∀ v ∈ s.vals, ∀ g ∈ j.objs, Tested v g i) → ∃ s', s.removeFromJoint E a b = (s', none) ∧ List.Forall₂ (Without j i) s.vals s'.vals ∧
      s'.names = s.names ∧ s'.col = s.col ∧ s'.obs = s.obs ∧ s'.kind = s.kind ∧ s'.types = s.types) ∧
    ((∃ v ∈ s.vals, ∃ g ∈ j.objs, ¬ Tested v g i) → (s.removeFromJoint E a b).2 = some .runtime) := by
  have hI := reach_inv hE h
  have hn := hE.nodup j (List.mem_of_find?_eq_some hj)
  constructor
  · intro ht
    obtain ⟨l, hl, hl'⟩ := cvs_ok hn ⟨s.made, i⟩ s.cvs hI.cvs (fun v hv => ht v (by simp [St.vals, hv]))
    cases hp : s.pv with
    | cont c => exact absurd hp (hc c)
    | blind =>
      refine ⟨{ s with made := s.made + 1, cvs := l }, ?_, ?_, rfl, rfl, rfl, rfl, rfl⟩
      · simp only [St.removeFromJoint, hj, hi, hp, PVal.removeFromJoint, hl]
      · simpa [St.vals, hp] using hl'
    | user v =>
      have hv := hI.pv
      rw [hp] at hv
      obtain ⟨v', h3, h4⟩ := user_ok hn i hv (ht v (by simp [St.vals, hp]))
      refine ⟨{ s with made := s.made + 1, pv := .user v', cvs := l }, ?_, ?_, rfl, rfl, rfl, rfl, rfl⟩
      · simp only [St.removeFromJoint, hj, hi, hp, PVal.removeFromJoint, hl, h3]
      · simpa [St.vals, hp] using ⟨h4, hl'⟩
  · rintro ⟨w, hw, hg⟩
    cases hp : s.pv with
    | cont c => exact absurd hp (hc c)
    | blind =>
      obtain ⟨l, hl⟩ := cvs_thrown hn ⟨s.made, i⟩ s.cvs hI.cvs ⟨w, by simpa [St.vals, hp] using hw, hg⟩
      simp only [St.removeFromJoint, hj, hi, hp, PVal.removeFromJoint, hl]
    | user v =>
      have hv := hI.pv
      rw [hp] at hv
      by_cases hvt : ∃ g ∈ j.objs, ¬ Tested v g i
      · obtain ⟨v', h1⟩ := user_thrown hn i hv hvt
        simp only [St.removeFromJoint, hj, hi, hp, PVal.removeFromJoint, h1]
      · have hvt' := hvt
        push Not at hvt'
        obtain ⟨v', h1, -⟩ := user_ok hn i hv hvt'
        have hw' : w ∈ s.cvs := by
          have : w = v ∨ w ∈ s.cvs := by simpa [St.vals, hp] using hw
          rcases this with rfl | h'
          · exact absurd hg hvt
          · exact h'
        obtain ⟨l, hl⟩ := cvs_thrown hn ⟨s.made, i⟩ s.cvs hI.cvs ⟨w, hw', hg⟩
        simp only [St.removeFromJoint, hj, hi, hp, PVal.removeFromJoint, h1, hl]

/-! ### A reset brings the tests back -/

theorem tested_add (E : Env N Q) {v : Obst.St Geo Q} (h : Obst.Aligned v) (k : Nat) :
    (∀ g i, Tested v g i → Tested (Obst.addObstacle (E.joints.map J.user) (.obst k) v) g i) ∧
    ∀ j ∈ E.joints, ∀ g ∈ j.objs, Tested (Obst.addObstacle (E.joints.map J.user) (.obst k) v) g k := by
  obtain ⟨-, -, -, h4⟩ := Obst.C38_add (E.joints.map J.user) (Geo.obst k) v h
  constructor
  · rintro g i ⟨q, hq⟩
    exact ⟨q, by rw [h4]; exact List.mem_append_left _ hq⟩
  · intro j hj g hg
    refine ⟨v.dflt, ?_⟩
    rw [h4]
    refine List.mem_append_right _ (List.mem_map.2 ⟨Geo.robot g, ?_, rfl⟩)
    refine List.mem_flatten.2 ⟨j.user.inner, List.mem_map.2 ⟨j.user, List.mem_map_of_mem hj, rfl⟩, ?_⟩
    rw [inner_user]
    exact List.mem_map_of_mem hg

theorem vals_pbAdd (E : Env N Q) (s : St N Q) (o : Ref) :
    (s.pbAdd E o).vals = s.vals.map (Obst.addObstacle (E.joints.map J.user) (.obst o.geo)) := by
  cases hp : s.pv <;> simp [St.vals, St.pbAdd, PVal.add, hp]

theorem vals_aligned {s : St N Q} (h : Inv s) : ∀ v ∈ s.vals, Obst.Aligned v := by
  intro v hv
  rcases List.mem_append.1 hv with hv | hv
  · have hp := h.pv
    cases hq : s.pv with
    | user w =>
      rw [hq] at hv hp
      rw [List.mem_singleton.1 hv]; exact hp
    | cont c => rw [hq] at hv; cases hv
    | blind => rw [hq] at hv; cases hv
  · exact h.cvs v hv

theorem fold_tested (E : Env N Q) (l : List Ref) {s : St N Q} (hl : ∀ o ∈ l, o.addr < s.made) (h : Inv s) (D : Nat → Nat → Prop)
    (hD : ∀ v ∈ s.vals, ∀ g i, D g i → Tested v g i) :
    ∀ v ∈ (l.foldl (St.pbAdd E) s).vals, (∀ g i, D g i → Tested v g i) ∧ ∀ o ∈ l, ∀ j ∈ E.joints, ∀ g ∈ j.objs, Tested v g o.geo := by
  induction l generalizing s D with
  | nil => intro v hv; exact ⟨hD v hv, by simp⟩
  | cons o l ih =>
    intro v hv
    have := ih (s := s.pbAdd E o) (fun x hx => hl x (by simp [hx])) (inv_pbAdd E (hl o (by simp)) h)
      (fun g i => D g i ∨ i = o.geo ∧ ∃ j ∈ E.joints, g ∈ j.objs) (by
        intro w hw g i hgi
        rw [vals_pbAdd] at hw
        obtain ⟨u, hu, rfl⟩ := List.mem_map.1 hw
        obtain ⟨t1, t2⟩ := tested_add E (vals_aligned h u hu) o.geo
        rcases hgi with hgi | ⟨rfl, j, hj, hg⟩
        · exact t1 g i (hD u hu g i hgi)
        · exact t2 j hj g hg) v hv
    refine ⟨fun g i hgi => this.1 g i (Or.inl hgi), ?_⟩
    intro x hx j hj g hg
    rcases List.mem_cons.1 hx with rfl | hx
    · exact this.1 g x.geo (Or.inr ⟨rfl, j, hj, hg⟩)
    · exact this.2 x hx j hj g hg

/-- C155: after `resetProblem` every validation tests every object of the robot against every collision obstacle, also those that had been
removed from a joint. -/
theorem C155_reset {E : Env N Q} (hE : E.Ok) {s : St N Q} (h : ∀ o ∈ s.col, o.addr < s.made) :
    ∀ v ∈ (s.resetProblem E).vals, ∀ o ∈ (s.resetProblem E).col, ∀ j ∈ E.joints, ∀ g ∈ j.objs, Tested v g o.geo := by
  intro v hv o ho
  have hcol : ∀ (l : List Ref) (t : St N Q), (l.foldl (St.pbAdd E) t).col = t.col := by
    intro l
    induction l with
    | nil => intro t; rfl
    | cons x l ih => intro t; exact ih (t.pbAdd E x)
  have ho' : o ∈ s.col := by
    simp only [St.resetProblem, St.pbObstacles, hcol] at ho
    exact ho
  have hi : Inv ((({ s with obs := [] } : St N Q).initPv E).initCvs E) :=
    inv_initCvs hE (s := ({ s with obs := [] } : St N Q).initPv E) h (by simp [St.initPv]) (old_fold E _ (by simp) (old_new hE _ _))
  exact (fold_tested E s.col (s := ({ (({ s with obs := [] } : St N Q).initPv E).initCvs E with obs := [] })) h
    ⟨hi.col, by simp, hi.pv, hi.cvs⟩ (fun _ _ => False) (by simp) v hv).2 o ho'

/-- C155: after every history, then `resetProblem` with a path validation that is not continuous, an obstacle with collision can be removed from
every joint. -/
theorem C155_after_reset {E : Env N Q} (hE : E.Ok) {s : St N Q} (h : Reach E s) (hk : s.kind ≠ .continuous) {a b : N} {j : J N} {i : Nat}
    (hj : E.joints.find? (fun j => j.name = b) = some j) (hi : s.names.findIdx? (fun m => m = a) = some i)
    (ho : ∃ o ∈ s.col, o.geo = i) :
    ∃ s', (s.resetProblem E).removeFromJoint E a b = (s', none) ∧
      ∀ v ∈ s'.vals, ∀ g ∈ j.objs, ¬ Tested v g i := by
  have hI := reach_inv hE h
  have hfold : ∀ (l : List Ref) (t : St N Q), (l.foldl (St.pbAdd E) t).names = t.names ∧ (l.foldl (St.pbAdd E) t).col = t.col ∧
      ((∀ c, t.pv ≠ .cont c) → ∀ c, (l.foldl (St.pbAdd E) t).pv ≠ .cont c) := by
    intro l
    induction l with
    | nil => intro t; exact ⟨rfl, rfl, id⟩
    | cons x l ih =>
      intro t
      obtain ⟨h1, h2, h3⟩ := ih (t.pbAdd E x)
      refine ⟨h1, h2, fun ht => h3 ?_⟩
      intro c
      cases hp : t.pv with
      | cont c => exact absurd hp (ht c)
      | user v => simp [St.pbAdd, PVal.add, hp]
      | blind => simp [St.pbAdd, PVal.add, hp]
  have hpv : ∀ c, (s.resetProblem E).pv ≠ .cont c := by
    apply (hfold s.col _).2.2
    intro c
    simp only [St.initCvs, St.initPv, List.foldl_nil]
    cases hkk : s.kind with
    | continuous => exact absurd hkk hk
    | discretized => simp [newPv]
    | blind => simp [newPv]
  have hnames : (s.resetProblem E).names = s.names := (hfold s.col _).1
  have hcol : (s.resetProblem E).col = s.col := (hfold s.col _).2.1
  obtain ⟨o, ho, rfl⟩ := ho
  obtain ⟨s', h1, h2, -⟩ := (C155_remove_partial hE (h.step .resetProblem) hpv hj (by rw [← hi]; exact congrArg _ hnames)).1 (by
    intro v hv g hg
    exact C155_reset hE hI.col v hv o (by rw [hcol]; exact ho) j (List.mem_of_find?_eq_some hj) g hg)
  refine ⟨s', h1, ?_⟩
  intro v hv g hg ⟨q, hq⟩
  have hall : ∀ (l l' : List (Obst.St Geo Q)), List.Forall₂ (Without j o.geo) l l' → ∀ v ∈ l', ∃ w, Without j o.geo w v := by
    intro l l' hll
    induction hll with
    | nil => simp
    | cons hab _ ih =>
      intro v hv
      rcases List.mem_cons.1 hv with rfl | hv
      · exact ⟨_, hab⟩
      · exact ih v hv
  obtain ⟨w, hw⟩ := hall _ _ h2 v hv
  rw [hw.c] at hq
  have := (List.mem_filter.1 hq).2
  simp only [decide_eq_true_eq] at this
  exact this ⟨trivial, g, hg, rfl⟩

end

/-! ### Examples -/

/-- A robot with two joints, a body with two objects and one with one object. -/
def exEnv : Env String Nat where
  joints := [⟨"arm", 1, some [0, 1]⟩, ⟨"hand", 2, some [2]⟩, ⟨"tool", 3, none⟩]
  jidx := fun g => if g < 2 then 1 else 2
  user := { cP := [(.robot 0, .robot 2)], cR := [7], pP := [], pR := [], dP := [], dR := [], dflt := 0 }
  cont := { ivs := [.pair { ia := 1, ib := 2, prs := [(.robot 0, .robot 2)], rqs := [7] }], disabled := [] }
  dflt := 0

theorem exOk : exEnv.Ok where
  nodup := by decide
  user := ⟨rfl, rfl, rfl⟩
  cont := ⟨by intro b hb; simp [exEnv] at hb; subst hb; rfl, by simp [exEnv]⟩
  pairs := by simp [exEnv]
  robot := by
    intro b hb p hp
    simp [exEnv] at hb
    subst hb
    simp at hp
    subst hp
    exact ⟨2, rfl⟩

def run (l : List (Op String)) : St String Nat := l.foldl (fun s o => (step exEnv s o).1) (St.start exEnv)

theorem run_reach (l : List (Op String)) : Reach exEnv (run l) := by
  unfold run
  generalize hs : St.start exEnv = s
  have : Reach exEnv s := hs ▸ Reach.start
  clear hs
  induction l generalizing s with
  | nil => exact this
  | cons o l ih => exact ih _ (this.step o)

def pairs (s : St String Nat) : List (List (Geo × Geo)) := s.vals.map (·.cP)

/-- Discretized validation: the tests are removed in the path validation and in the config validation, then come back when another obstacle is
removed. -/
example : (((run [.add "wall" true, .add "box" true]).removeFromJoint exEnv "wall" "arm").2 = none) ∧
    pairs (run [.add "wall" true, .add "box" true, .removeFromJoint "wall" "arm"]) =
      List.replicate 2 [(.robot 0, .robot 2), (.robot 2, .obst 0), (.robot 0, .obst 1), (.robot 1, .obst 1), (.robot 2, .obst 1)] ∧
    pairs (run [.add "wall" true, .add "box" true, .removeFromJoint "wall" "arm", .remove "box"]) =
      List.replicate 2 [(.robot 0, .robot 2), (.robot 0, .obst 0), (.robot 1, .obst 0), (.robot 2, .obst 0)] := by
  decide

/-- The hand is fixed in the world: its test with the wall is disabled, and cannot be removed any more. -/
example : ((run [.add "wall" true, .filter (fun a b => if a = 2 ∧ b = 0 then .constrained else .unconstrained)]).removeFromJoint exEnv "wall" "hand").2 =
      some .runtime ∧
    ((run [.add "wall" true, .filter (fun a b => if a = 2 ∧ b = 0 then .constrained else .unconstrained)]).removeFromJoint exEnv "wall" "arm").2 =
      none := by
  decide

/-- The order of the arguments of the declaration. -/
example : ((run [.add "wall" true]).removeFromJoint exEnv "arm" "wall").2 = some .runtime :=
  congrArg Prod.snd (C155_declared_order exEnv _ "arm" "wall" (by decide))

/-- Continuous validation: the obstacle is registered for the joint, and the call throws. -/
theorem C155_continuous_counterexample :
    (∃ c, (run [.pathValidationType .continuous, .add "wall" true]).pv = .cont c ∧
      (c.ivs.any (fun x => match x with | .pair b => b.ia = 1 ∧ b.ib = 0 ∧ b.prs.map Prod.fst = [.robot 0, .robot 1] | _ => false)) = true) ∧
    ((run [.pathValidationType .continuous, .add "wall" true]).removeFromJoint exEnv "wall" "arm").2 = some .runtime := by
  refine ⟨⟨_, rfl, by decide⟩, by decide⟩

example : ∃ s' e, (run [.pathValidationType .continuous, .add "wall" true]).removeFromJoint exEnv "wall" "arm" = (s', some e) ∧ e ≠ .ub ∧
    Same (run [.pathValidationType .continuous, .add "wall" true]) s' :=
  C155_continuous_never exOk (run_reach _) rfl "wall" "arm"

example : ∃ s', ((run [.add "wall" true, .removeFromJoint "wall" "hand"]).resetProblem exEnv).removeFromJoint exEnv "wall" "arm" = (s', none) ∧
    ∀ v ∈ s'.vals, ∀ g ∈ [0, 1], ¬ Tested v g 0 :=
  C155_after_reset (j := ⟨"arm", 1, some [0, 1]⟩) exOk (run_reach _) (by decide) rfl (by decide) ⟨⟨0, 0⟩, by decide, rfl⟩

end Verif.ByName
