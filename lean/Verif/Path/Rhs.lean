import Mathlib.Logic.Function.Basic
import Mathlib.Data.List.Basic
import Mathlib.Tactic.SplitIfs

/-!
# C125: right-hand sides of the constraints along paths

A set of constraints is a mutable object: the right-hand sides of its config projector are changed by
`rightHandSideFromConfig` and by each evaluation of a path (`rightHandSideAt`, src/path.cc:140-146).
Paths, steering methods and path projectors hold pointers to such objects, so what a path returns might depend on
what happened to other paths.  Objects live in a heap; pointers are indices.
-/
set_option linter.unusedSectionVars false
namespace Verif.Rhs
variable {Q V K I : Type}

/-- How the right-hand side of one constraint is set (hpp-constraints, `Implicit`): always null, constant but settable
(`Equality`), or a function of the parameter along the path (`rightHandSideFunction`). -/
inductive Kind (V K : Type) where
  | fixed
  | equality
  | varying (f : K → V)

/-- A constraint set with a config projector: for each constraint its kind and its current right-hand side. -/
structure Cell (V K I : Type) where
  kind : I → Kind V K
  rhs : I → V

/-- The numerical part: value of each constraint, projection on a level set, test of satisfaction
(`ConstraintSet::apply`, `ConstraintSet::isSatisfied`, for given right-hand sides). -/
structure Solver (Q V I : Type) where
  value : I → Q → V
  project : (I → V) → Q → Q × Bool
  satisfied : (I → V) → Q → Bool

/-- `ConfigProjector::rightHandSideAt`: src/config-projector.cc:324-326; only constraints with a function are changed. -/
def Cell.rhsAt (c : Cell V K I) (s : K) : Cell V K I :=
  { c with rhs := fun i => match c.kind i with
      | .varying f => f s
      | _ => c.rhs i }

/-- `ConfigProjector::rightHandSideFromConfig(config)`: src/config-projector.cc:285-287; constraints whose right-hand side is null keep it. -/
def Cell.rhsFromConfig (S : Solver Q V I) (c : Cell V K I) (q : Q) : Cell V K I :=
  { c with rhs := fun i => match c.kind i with
      | .fixed => c.rhs i
      | _ => S.value i q }

/-- Class `Path`: interval of parameters, virtual `impl_compute`, `initial`, `end` (constant along the life of the
object), pointer to the constraints.  Without time parameterization. -/
structure PathObj (Q K : Type) where
  compute : K → Option Q
  lo : K
  hi : K
  first : Q
  last : Q
  cell : Option Nat

/-- Constraint sets and paths alive. -/
structure World (Q V K I : Type) where
  cells : List (Cell V K I)
  paths : List (PathObj Q K)

variable (S : Solver Q V I)

/-- New object in the heap. -/
def World.alloc (w : World Q V K I) (c : Cell V K I) : World Q V K I × Nat := ({ w with cells := w.cells ++ [c] }, w.cells.length)

/-- Update of an object. -/
def World.modify (w : World Q V K I) (c : Nat) (f : Cell V K I → Cell V K I) : World Q V K I := { w with cells := w.cells.modify c f }

/-- `ConstraintSet::copy`: src/constraint-set.cc:48, 55-60, with `ConfigProjector::copy` (src/config-projector.cc:101-113): the solver,
thus the right-hand sides, are copied.  Dangling pointers do not occur in reachable worlds (`Wf` below): they allocate nothing. -/
def World.copyCell (w : World Q V K I) (c : Nat) : World Q V K I × Option Nat :=
  match w.cells[c]? with
  | none => (w, none)
  | some x => ((w.alloc x).1, some (w.alloc x).2)

/-- `Path::Path(interval, …, constraints)`: src/path.cc:89-101: the constraints are copied. -/
def World.construct (w : World Q V K I) (p : PathObj Q K) (c : Option Nat) : World Q V K I :=
  match c with
  | none => { w with paths := w.paths ++ [{ p with cell := none }] }
  | some c =>
    let (w', c') := w.copyCell c
    { w' with paths := w'.paths ++ [{ p with cell := c' }] }

/-- `Path::Path(const Path&)`: src/path.cc:113-127. -/
def World.copyPath (w : World Q V K I) (n : Nat) : World Q V K I :=
  match w.paths[n]? with
  | none => w
  | some p => w.construct p p.cell

/-- `Path::Path(const Path&, constraints)`: src/path.cc:129-138: the pointer is stored, the constraints are not copied. -/
def World.copyWith (w : World Q V K I) (n c : Nat) : World Q V K I :=
  match w.paths[n]? with
  | none => w
  | some p => { w with paths := w.paths ++ [{ p with cell := some c }] }

/-- `Path::applyConstraints`: src/path.cc:140-146. -/
def World.applyConstraints (w : World Q V K I) (c : Option Nat) (q : Q) (s : K) : World Q V K I × Option Q :=
  match c with
  | none => (w, some q)
  | some c =>
    let w' := w.modify c fun x => x.rhsAt s
    match w'.cells[c]? with
    | none => (w', none)
    | some x => (w', if (S.project x.rhs q).2 then some (S.project x.rhs q).1 else none)

/-- `Path::eval`: include/hpp/core/path.hh:130-140; the result is kept when the evaluation succeeds. -/
def World.eval (w : World Q V K I) (n : Nat) (t : K) : World Q V K I × Option Q :=
  match w.paths[n]? with
  | none => (w, none)
  | some p =>
    match p.compute t with
    | none => (w, none)
    | some q => w.applyConstraints S p.cell q t

/-- `Path::checkPath`: src/path.cc:235-270; `true` when no `projection_error` is thrown. -/
def World.checkPath (w : World Q V K I) (n : Nat) : World Q V K I × Bool :=
  match w.paths[n]? with
  | none => (w, false)
  | some p =>
    match p.cell with
    | none => (w, true)
    | some c =>
      let w1 := w.modify c fun x => x.rhsAt p.lo
      match w1.cells[c]? with
      | none => (w1, false)
      | some x =>
        if !S.satisfied x.rhs p.first then (w1, false)
        else
          let w2 := w1.modify c fun x => x.rhsAt p.hi
          match w2.cells[c]? with
          | none => (w2, false)
          | some x => (w2, S.satisfied x.rhs p.last)

/-- `steeringMethod::Straight::impl_compute`: src/steering-method/straight.cc:38-52 with the constructor of
`StraightPath` (src/straight-path.cc:64-73).  `c` points to the constraints of the steering method, which have a config projector; `p` is the
straight path without constraints from `q1` to `q2` (the length is not modelled here). -/
def World.steer (w : World Q V K I) (c : Option Nat) (p : PathObj Q K) : World Q V K I :=
  match c with
  | none => w.construct p none
  | some c =>
    match w.copyCell c with
    | (w', none) => w'
    | (w', some c') => (w'.modify c' fun x => x.rhsFromConfig S p.first).construct p (some c')

/-- What users and the library do with paths and constraints. -/
inductive Op (Q V K I : Type) where
  /-- a steering method with constraints `c` builds the path -/
  | steer (c : Option Nat) (p : PathObj Q K)
  /-- direct construction with constraints `c` -/
  | construct (p : PathObj Q K) (c : Option Nat)
  | copy (n : Nat)
  | copyWith (n c : Nat)
  | eval (n : Nat) (t : K)
  | check (n : Nat)
  /-- `rightHandSideFromConfig` called on an object of the heap (user, path projectors) -/
  | fromConfig (c : Nat) (q : Q)

/-- Effect of an operation on the heap. -/
def World.step (w : World Q V K I) : Op Q V K I → World Q V K I
  | .steer c p => w.steer S c p
  | .construct p c => w.construct p c
  | .copy n => w.copyPath n
  | .copyWith n c => w.copyWith n c
  | .eval n t => (w.eval S n t).1
  | .check n => (w.checkPath S n).1
  | .fromConfig c q => w.modify c fun x => x.rhsFromConfig S q

def World.run (w : World Q V K I) (os : List (Op Q V K I)) : World Q V K I := os.foldl (World.step S) w

/-! ## Specification -/

/-- Two states of a constraint set that differ only by right-hand sides that each evaluation overwrites. -/
structure Same (x y : Cell V K I) : Prop where
  kind : x.kind = y.kind
  rhs : ∀ i, (∀ f, x.kind i ≠ .varying f) → x.rhs i = y.rhs i

theorem Same.refl (x : Cell V K I) : Same x x := ⟨rfl, fun _ _ => rfl⟩
theorem Same.trans {x y z : Cell V K I} (h : Same x y) (h' : Same y z) : Same x z :=
  ⟨h.kind.trans h'.kind, fun i hi => (h.rhs i hi).trans (h'.rhs i (by rw [← h.kind]; exact hi))⟩

theorem Same.at (x : Cell V K I) (s : K) : Same x (x.rhsAt s) := by
  refine ⟨rfl, fun i hi => ?_⟩
  show x.rhs i = match x.kind i with
    | .varying f => f s
    | _ => x.rhs i
  cases hk : x.kind i with
  | varying f => exact absurd hk (hi f)
  | fixed => rfl
  | equality => rfl

theorem Same.rhsAt_eq {x y : Cell V K I} (h : Same x y) (s : K) : x.rhsAt s = y.rhsAt s := by
  obtain ⟨kx, rx⟩ := x
  obtain ⟨ky, ry⟩ := y
  obtain ⟨h1, h2⟩ := h
  simp only at h1 h2
  subst h1
  simp only [Cell.rhsAt, Cell.mk.injEq, true_and]
  funext i
  cases hk : kx i with
  | varying f => rfl
  | fixed => exact h2 i (by simp [hk])
  | equality => exact h2 i (by simp [hk])

/-- The right-hand sides in force at parameter `s` for a path whose constraints are `x`. -/
def inForce (x : Cell V K I) (s : K) (i : I) : V :=
  match x.kind i with
  | .varying f => f s
  | _ => x.rhs i

/-- Evaluation as a function: the point of the unconstrained path, projected with the right-hand sides in force. -/
def evalSpec (p : PathObj Q K) (x : Option (Cell V K I)) (t : K) : Option Q :=
  match p.compute t, x with
  | none, _ => none
  | some q, none => some q
  | some q, some x => if (S.project (inForce x t) q).2 then some (S.project (inForce x t) q).1 else none

/-- The constraints of a path. -/
def World.cellOf (w : World Q V K I) (p : PathObj Q K) : Option (Cell V K I) := p.cell.bind fun c => w.cells[c]?

/-- Paths point to live objects. -/
def World.Wf (w : World Q V K I) : Prop := ∀ p ∈ w.paths, ∀ c, p.cell = some c → c < w.cells.length

/-- Pointers given to an operation are pointers to live objects. -/
def Op.Valid (w : World Q V K I) : Op Q V K I → Prop
  | .steer c _ => ∀ x, c = some x → x < w.cells.length
  | .construct _ c => ∀ x, c = some x → x < w.cells.length
  | .copyWith _ c => c < w.cells.length
  | _ => True

/-- Every operation of a sequence has valid pointers. -/
def AllValid : World Q V K I → List (Op Q V K I) → Prop
  | _, [] => True
  | w, o :: os => o.Valid w ∧ AllValid (w.step S o) os

/-- The operation sets the right-hand sides of object `c`. -/
def Op.Sets (c : Nat) : Op Q V K I → Prop
  | .fromConfig d _ => d = c
  | _ => False

/-- What an operation that does not set right-hand sides of `c` preserves. -/
structure Frame (c : Nat) (w w' : World Q V K I) : Prop where
  paths : w.paths <+: w'.paths
  cell : ∀ x, w.cells[c]? = some x → ∃ y, w'.cells[c]? = some y ∧ Same x y

theorem Frame.refl (c : Nat) (w : World Q V K I) : Frame c w w := ⟨List.prefix_refl _, fun x h => ⟨x, h, .refl x⟩⟩
theorem Frame.trans {c : Nat} {u v w : World Q V K I} (h : Frame c u v) (h' : Frame c v w) : Frame c u w := by
  refine ⟨h.paths.trans h'.paths, fun x hx => ?_⟩
  obtain ⟨y, hy, s⟩ := h.cell x hx
  obtain ⟨z, hz, s'⟩ := h'.cell y hy
  exact ⟨z, hz, s.trans s'⟩

theorem frame_alloc (c : Nat) (w : World Q V K I) (x : Cell V K I) : Frame c w (w.alloc x).1 := by
  refine ⟨List.prefix_refl _, fun y hy => ⟨y, ?_, .refl y⟩⟩
  simp only [World.alloc]
  rw [List.getElem?_append_left (List.getElem?_eq_some_iff.1 hy).1]; exact hy

theorem frame_paths (c : Nat) (w : World Q V K I) (l : List (PathObj Q K)) : Frame c w { w with paths := w.paths ++ l } :=
  ⟨List.prefix_append _ _, fun y hy => ⟨y, hy, .refl y⟩⟩

theorem frame_at (c d : Nat) (w : World Q V K I) (s : K) : Frame c w (w.modify d fun x => x.rhsAt s) := by
  refine ⟨List.prefix_refl _, fun y hy => ?_⟩
  simp only [World.modify, List.getElem?_modify, hy, Functor.map, Option.map_some]
  split_ifs
  · exact ⟨_, rfl, .at y s⟩
  · exact ⟨_, rfl, .refl y⟩

theorem frame_modify_ne {c d : Nat} (h : d ≠ c) (w : World Q V K I) (f : Cell V K I → Cell V K I) : Frame c w (w.modify d f) := by
  refine ⟨List.prefix_refl _, fun y hy => ⟨y, ?_, .refl y⟩⟩
  simp only [World.modify, List.getElem?_modify, hy, Functor.map, Option.map_some, if_neg h]

theorem frame_copyCell (c d : Nat) (w : World Q V K I) : Frame c w (w.copyCell d).1 := by
  unfold World.copyCell
  split
  · exact .refl _ _
  · exact frame_alloc _ _ _

theorem frame_construct (c : Nat) (w : World Q V K I) (p : PathObj Q K) (d : Option Nat) : Frame c w (w.construct p d) := by
  unfold World.construct
  split
  · exact frame_paths _ _ _
  · exact (frame_copyCell _ _ _).trans (frame_paths _ _ _)

theorem frame_eval (c : Nat) (w : World Q V K I) (n : Nat) (t : K) : Frame c w (w.eval S n t).1 := by
  unfold World.eval
  split
  · exact .refl _ _
  · split
    · exact .refl _ _
    · unfold World.applyConstraints
      split
      · exact .refl _ _
      · simp only
        split <;> exact frame_at _ _ _ _

theorem frame_check (c : Nat) (w : World Q V K I) (n : Nat) : Frame c w (w.checkPath S n).1 := by
  unfold World.checkPath
  split
  · exact .refl _ _
  · split
    · exact .refl _ _
    · simp only
      split
      · exact frame_at _ _ _ _
      · split_ifs
        · exact frame_at _ _ _ _
        · split <;> exact (frame_at _ _ _ _).trans (frame_at _ _ _ _)

theorem frame_steer (c : Nat) (w : World Q V K I) (hc : c < w.cells.length) (d : Option Nat) (p : PathObj Q K) : Frame c w (w.steer S d p) := by
  unfold World.steer
  split
  · exact frame_construct _ _ _ _
  · rename_i d
    have hf := frame_copyCell c d w
    split
    · rename_i w' h; rw [h] at hf; exact hf
    · rename_i w' c' h
      have e : c' = w.cells.length := by
        unfold World.copyCell at h
        split at h
        · simp at h
        · simp only [Prod.mk.injEq, Option.some.injEq, World.alloc] at h
          exact h.2.symm
      rw [h] at hf
      exact hf.trans ((frame_modify_ne (by omega) _ _).trans (frame_construct _ _ _ _))

theorem frame_step {c : Nat} {w : World Q V K I} (hc : c < w.cells.length) {o : Op Q V K I} (h : ¬ o.Sets c) : Frame c w (w.step S o) := by
  cases o with
  | steer d p => exact frame_steer S c w hc d p
  | construct p d => exact frame_construct _ _ _ _
  | copy n =>
    simp only [World.step]
    unfold World.copyPath
    split
    · exact .refl _ _
    · exact frame_construct _ _ _ _
  | copyWith n d =>
    simp only [World.step]
    unfold World.copyWith
    split
    · exact .refl _ _
    · exact frame_paths _ _ _
  | eval n t => exact frame_eval S c w n t
  | check n => exact frame_check S c w n
  | fromConfig d q => exact frame_modify_ne h _ _

theorem frame_run {c : Nat} (os : List (Op Q V K I)) (w : World Q V K I) (hc : c < w.cells.length) (h : ∀ o ∈ os, ¬ o.Sets c) :
    Frame c w (w.run S os) := by
  induction os generalizing w with
  | nil => exact .refl _ _
  | cons o os ih =>
    have h1 := frame_step S hc (h o (by simp))
    obtain ⟨y, hy, _⟩ := h1.cell _ (List.getElem?_eq_getElem hc)
    exact h1.trans (ih _ (List.getElem?_eq_some_iff.1 hy).1 fun o ho => h o (by simp [ho]))

theorem eval_eq {w : World Q V K I} {n : Nat} {p : PathObj Q K} (hp : w.paths[n]? = some p) (hc : ∀ c, p.cell = some c → c < w.cells.length) (t : K) :
    (w.eval S n t).2 = evalSpec S p (w.cellOf p) t := by
  unfold World.eval evalSpec World.cellOf
  simp only [hp]
  cases hq : p.compute t with
  | none => rfl
  | some q =>
    simp only
    cases hcell : p.cell with
    | none => rfl
    | some c =>
      have hl := hc c hcell
      simp only [World.applyConstraints, World.modify, Option.bind_some, List.getElem?_modify, List.getElem?_eq_getElem hl, Functor.map,
        Option.map_some, if_true]
      rfl

theorem evalSpec_same (p : PathObj Q K) {x y : Cell V K I} (h : Same x y) (t : K) : evalSpec S p (some x) t = evalSpec S p (some y) t := by
  have : inForce x t = inForce y t := by
    have := congrArg Cell.rhs (h.rhsAt_eq t)
    exact this
  unfold evalSpec
  cases p.compute t with
  | none => rfl
  | some q => simp only [this]

theorem paths_step (w : World Q V K I) (o : Op Q V K I) : w.paths <+: (w.step S o).paths := by
  cases o with
  | fromConfig d q => exact List.prefix_refl _
  | steer d q =>
    simp only [World.step]
    unfold World.steer
    split
    · exact (frame_construct 0 _ _ _).paths
    · rename_i d
      have hf := frame_copyCell 0 d w
      split
      · rename_i h; rw [h] at hf; exact hf.paths
      · rename_i h; rw [h] at hf
        refine hf.paths.trans ?_
        exact (frame_construct 0 (World.modify _ _ _) _ _).paths
  | construct q d => exact (frame_construct 0 _ _ _).paths
  | copy m =>
    simp only [World.step]; unfold World.copyPath
    split
    · exact List.prefix_refl _
    · exact (frame_construct 0 _ _ _).paths
  | copyWith m d =>
    simp only [World.step]; unfold World.copyWith
    split
    · exact List.prefix_refl _
    · exact List.prefix_append _ _
  | eval m s => exact (frame_eval S 0 w m s).paths
  | check m => exact (frame_check S 0 w m).paths

theorem paths_run (os : List (Op Q V K I)) (w : World Q V K I) : w.paths <+: (w.run S os).paths := by
  induction os generalizing w with
  | nil => exact List.prefix_refl _
  | cons o os ih => exact (paths_step S w o).trans (ih _)

/-- C125: what a path returns at a parameter is a function of the path and of the right-hand sides of its constraints: whatever is built,
copied, evaluated or checked in between, on this path or on others, also on paths that share its constraints, evaluation gives the same result, as
long as nobody sets the right-hand sides of its own constraints. -/
theorem C125_stable (w : World Q V K I) (hw : w.Wf) (n : Nat) (p : PathObj Q K) (hp : w.paths[n]? = some p) (os : List (Op Q V K I))
    (hos : ∀ o ∈ os, ∀ c, p.cell = some c → ¬ o.Sets c) (t : K) :
    ((w.run S os).eval S n t).2 = (w.eval S n t).2 := by
  have hmem : p ∈ w.paths := List.mem_of_getElem? hp
  rw [eval_eq S hp (hw p hmem)]
  have up : ∀ w' : World Q V K I, w.paths <+: w'.paths → w'.paths[n]? = some p := by
    intro w' ⟨l, hl⟩
    rw [← hl, List.getElem?_append_left (List.getElem?_eq_some_iff.1 hp).1]; exact hp
  cases hcell : p.cell with
  | none =>
    rw [eval_eq S (up _ (paths_run S os w)) (by simp [hcell])]
    simp [World.cellOf, hcell]
  | some c =>
    have hl := hw p hmem c hcell
    have hf := frame_run S os w hl fun o ho => hos o ho c hcell
    obtain ⟨y, hy, hs⟩ := hf.cell _ (List.getElem?_eq_getElem hl)
    rw [eval_eq S (up _ hf.paths) (by intro c' h'; rw [hcell] at h'; cases h'; exact (List.getElem?_eq_some_iff.1 hy).1)]
    simp only [World.cellOf, hcell, Option.bind_some, hy, List.getElem?_eq_getElem hl]
    exact (evalSpec_same S p hs t).symm

theorem construct_some {w : World Q V K I} {c : Nat} {x : Cell V K I} (hx : w.cells[c]? = some x) (p : PathObj Q K) :
    w.construct p (some c) = ⟨w.cells ++ [x], w.paths ++ [{ p with cell := some w.cells.length }]⟩ := by
  simp only [World.construct, World.copyCell, hx, World.alloc]

/-- C125: a copy evaluates like the original did when it was copied, whatever is done afterwards, also when the right-hand sides of the
original or of any other object alive at that time are changed. -/
theorem C125_copy (w : World Q V K I) (hw : w.Wf) (n : Nat) (p : PathObj Q K) (hp : w.paths[n]? = some p) (os : List (Op Q V K I))
    (hos : ∀ o ∈ os, ∀ c, o.Sets c → c < w.cells.length) (t : K) :
    (((w.copyPath n).run S os).eval S w.paths.length t).2 = (w.eval S n t).2 := by
  have hmem : p ∈ w.paths := List.mem_of_getElem? hp
  rw [eval_eq S hp (hw p hmem)]
  cases hcell : p.cell with
  | none =>
    have e : w.copyPath n = ⟨w.cells, w.paths ++ [p]⟩ := by
      simp only [World.copyPath, hp, hcell, World.construct]
      congr 2
      obtain ⟨_, _, _, _, _, c⟩ := p
      simp only at hcell
      subst hcell; rfl
    have hw' : World.Wf (⟨w.cells, w.paths ++ [p]⟩ : World Q V K I) := by
      intro q hq c hc
      rcases List.mem_append.1 hq with h | h
      · exact hw q h c hc
      · rw [List.mem_singleton.1 h, hcell] at hc; cases hc
    rw [e, C125_stable S _ hw' w.paths.length p (by simp) os (by simp [hcell]),
      eval_eq S (p := p) (by simp) (by simp [hcell])]
    simp [World.cellOf, hcell]
  | some c =>
    have hl := hw p hmem c hcell
    have hx := List.getElem?_eq_getElem hl
    have e : w.copyPath n = ⟨w.cells ++ [w.cells[c]], w.paths ++ [{ p with cell := some w.cells.length }]⟩ := by
      simp only [World.copyPath, hp, hcell]
      exact construct_some hx p
    have hw' : World.Wf (⟨w.cells ++ [w.cells[c]], w.paths ++ [{ p with cell := some w.cells.length }]⟩ : World Q V K I) := by
      intro q hq d hd
      simp only [List.length_append, List.length_singleton]
      rcases List.mem_append.1 hq with h | h
      · have := hw q h d hd; omega
      · rw [List.mem_singleton.1 h] at hd
        simp only [Option.some.injEq] at hd; omega
    rw [e, C125_stable S _ hw' w.paths.length { p with cell := some w.cells.length } (by simp) os (by
        intro o ho d hd hset
        simp only [Option.some.injEq] at hd
        have := hos o ho d hset; omega),
      eval_eq S (p := { p with cell := some w.cells.length }) (by simp) (by simp)]
    simp [World.cellOf, hcell, evalSpec, hl]

/-- The constraints of a path built by a steering method whose constraints are `x`. -/
def steered (x : Cell V K I) (q1 : Q) : Cell V K I :=
  ⟨x.kind, fun i => match x.kind i with
    | .fixed => x.rhs i
    | _ => S.value i q1⟩

theorem steer_eq {w : World Q V K I} {c : Nat} {x : Cell V K I} (hx : w.cells[c]? = some x) (p : PathObj Q K) :
    w.steer S (some c) p = ⟨w.cells ++ [steered S x p.first, steered S x p.first], w.paths ++ [{ p with cell := some (w.cells.length + 1) }]⟩ := by
  have e1 : w.copyCell c = (⟨w.cells ++ [x], w.paths⟩, some w.cells.length) := by
    simp only [World.copyCell, hx, World.alloc]
  have e2 : (World.modify (⟨w.cells ++ [x], w.paths⟩ : World Q V K I) w.cells.length fun x => x.rhsFromConfig S p.first) =
      ⟨w.cells ++ [steered S x p.first], w.paths⟩ := by
    simp only [World.modify, World.mk.injEq, and_true]
    apply List.ext_getElem?
    intro k
    rw [List.getElem?_modify]
    by_cases hk : k < w.cells.length
    · rw [List.getElem?_append_left hk, List.getElem?_append_left hk]
      have hne : w.cells.length ≠ k := by omega
      cases w.cells[k]? <;> simp [hne]
    · by_cases hk2 : k = w.cells.length
      · subst hk2
        simp [Cell.rhsFromConfig, steered]
      · have : w.cells.length + 1 ≤ k := by omega
        rw [List.getElem?_eq_none (by simpa using this), List.getElem?_eq_none (by simpa using this)]
        rfl
  unfold World.steer
  simp only [e1, e2]
  rw [construct_some (x := steered S x p.first) (by simp)]
  simp

/-- The world after steering, and what it says of the new path. -/
theorem steer_eval (w : World Q V K I) (hw : w.Wf) (c : Nat) (x : Cell V K I) (hx : w.cells[c]? = some x) (p : PathObj Q K) (os : List (Op Q V K I))
    (hos : ∀ o ∈ os, ¬ o.Sets (w.cells.length + 1)) (t : K) :
    (((w.steer S (some c) p).run S os).eval S w.paths.length t).2 = evalSpec S p (some (steered S x p.first)) t := by
  rw [steer_eq S hx p]
  have hw' : World.Wf (⟨w.cells ++ [steered S x p.first, steered S x p.first], w.paths ++ [{ p with cell := some (w.cells.length + 1) }]⟩ : World Q V K I) := by
    intro q hq d hd
    simp only [List.length_append, List.length_cons, List.length_nil]
    rcases List.mem_append.1 hq with h | h
    · have := hw q h d hd; omega
    · rw [List.mem_singleton.1 h] at hd
      simp only [Option.some.injEq] at hd; omega
  rw [C125_stable S _ hw' w.paths.length { p with cell := some (w.cells.length + 1) } (by simp) os (by
      intro o ho d hd
      simp only [Option.some.injEq] at hd
      rw [← hd]; exact hos o ho),
    eval_eq S (p := { p with cell := some (w.cells.length + 1) }) (by simp) (by simp)]
  simp [World.cellOf, evalSpec]

/-- C125: a path returned by the straight steering method with constraints keeps, whatever is built or changed later, the level set of its initial
configuration: wherever evaluation succeeds, a constraint with settable right-hand side has the value it has at the
initial configuration of this path, a constraint given as a function of the parameter has the value of this function, and a
constraint without right-hand side is satisfied as in the steering method.  `close` is the tolerance of the projection. -/
theorem C125_steer (close : V → V → Prop) (hS : ∀ r q, (S.project r q).2 = true → ∀ i, close (S.value i (S.project r q).1) (r i))
    (w : World Q V K I) (hw : w.Wf) (c : Nat) (x : Cell V K I) (hx : w.cells[c]? = some x) (p : PathObj Q K) (os : List (Op Q V K I))
    (hos : ∀ o ∈ os, ¬ o.Sets (w.cells.length + 1)) (t : K) (q : Q)
    (h : (((w.steer S (some c) p).run S os).eval S w.paths.length t).2 = some q) (i : I) :
    match x.kind i with
    | .fixed => close (S.value i q) (x.rhs i)
    | .equality => close (S.value i q) (S.value i p.first)
    | .varying f => close (S.value i q) (f t) := by
  rw [steer_eval S w hw c x hx p os hos t] at h
  unfold evalSpec at h
  cases hq : p.compute t with
  | none => rw [hq] at h; cases h
  | some q0 =>
    simp only [hq] at h
    split_ifs at h with hok
    cases h
    have := hS _ _ hok i
    revert this
    simp only [inForce, steered]
    cases x.kind i <;> exact id

/-- C125: steering does not change the constraints of the steering method, nor any object alive before. -/
theorem C125_frame (w : World Q V K I) (c : Nat) (x : Cell V K I) (hx : w.cells[c]? = some x) (p : PathObj Q K) (d : Nat) (hd : d < w.cells.length) :
    (w.steer S (some c) p).cells[d]? = w.cells[d]? ∧ (w.steer S (some c) p).paths.length = w.paths.length + 1 := by
  rw [steer_eq S hx p]
  refine ⟨?_, by simp⟩
  simp only
  rw [List.getElem?_append_left hd]

/-- C125: the end configurations of a path are accepted exactly when they satisfy the constraints with the right-hand sides in force at the two
ends of the interval of parameters. -/
theorem C125_check (w : World Q V K I) (hw : w.Wf) (n : Nat) (p : PathObj Q K) (hp : w.paths[n]? = some p) :
    (w.checkPath S n).2 = true ↔ ∀ c x, p.cell = some c → w.cells[c]? = some x →
      S.satisfied (inForce x p.lo) p.first = true ∧ S.satisfied (inForce x p.hi) p.last = true := by
  unfold World.checkPath
  simp only [hp]
  cases hcell : p.cell with
  | none => simp
  | some c =>
    have hl := hw p (List.mem_of_getElem? hp) c hcell
    have hx := List.getElem?_eq_getElem hl
    have e1 : (w.modify c fun x => x.rhsAt p.lo).cells[c]? = some ((w.cells[c]).rhsAt p.lo) := by
      simp [World.modify, hl]
    have e2 : ((w.modify c fun x => x.rhsAt p.lo).modify c fun x => x.rhsAt p.hi).cells[c]? = some (((w.cells[c]).rhsAt p.lo).rhsAt p.hi) := by
      simp [World.modify, hl]
    have e3 : ((w.cells[c]).rhsAt p.lo).rhsAt p.hi = (w.cells[c]).rhsAt p.hi := ((Same.at _ _).rhsAt_eq _).symm
    have i1 : ((w.cells[c]).rhsAt p.lo).rhs = inForce w.cells[c] p.lo := rfl
    have i2 : ((w.cells[c]).rhsAt p.hi).rhs = inForce w.cells[c] p.hi := rfl
    simp only [e1, e2, e3, i1, i2]
    have iff1 : (∀ (d : ℕ) (x : Cell V K I), some c = some d → w.cells[d]? = some x →
        S.satisfied (inForce x p.lo) p.first = true ∧ S.satisfied (inForce x p.hi) p.last = true) ↔
        S.satisfied (inForce w.cells[c] p.lo) p.first = true ∧ S.satisfied (inForce w.cells[c] p.hi) p.last = true := by
      constructor
      · intro h; exact h c _ rfl hx
      · rintro h d x hd hx'
        cases hd
        rw [hx] at hx'; cases hx'; exact h
    rw [iff1]
    cases hs : S.satisfied (inForce w.cells[c] p.lo) p.first <;> simp

/-- `Dichotomy::applyToStraightPath` starts by setting the right-hand sides of the constraints of its argument from its initial configuration
(src/path-projector/dichotomy.cc:82-87). -/
def Op.projects (p : PathObj Q K) (c : Nat) : Op Q V K I := .fromConfig c p.first

/-- C125: on a path made by the steering method this changes nothing. -/
theorem C125_project_partial (w : World Q V K I) (hw : w.Wf) (c : Nat) (x : Cell V K I) (hx : w.cells[c]? = some x) (p : PathObj Q K)
    (t : K) : (((w.steer S (some c) p).step S (.projects p (w.cells.length + 1))).eval S w.paths.length t).2 =
      ((w.steer S (some c) p).eval S w.paths.length t).2 := by
  have h0 := steer_eval S w hw c x hx p [] (by simp) t
  simp only [World.run, List.foldl_nil] at h0
  rw [h0, steer_eq S hx p]
  rw [eval_eq S (p := { p with cell := some (w.cells.length + 1) }) (by simp [World.step, Op.projects, World.modify]) (by simp [World.step, Op.projects, World.modify])]
  have : ((steered S x p.first).rhsFromConfig S p.first : Cell V K I) = steered S x p.first := by
    simp only [Cell.rhsFromConfig, steered, Cell.mk.injEq, true_and]
    funext i
    cases x.kind i <;> rfl
  simp [World.cellOf, World.step, Op.projects, World.modify, evalSpec, this]

/-! ## Concrete worlds -/

/-- One constraint on pairs of integers: the first coordinate has the value of the right-hand side. -/
def demo : Solver (Int × Int) Int Unit where
  value := fun _ q => q.1
  project := fun r q => ((r (), q.2), true)
  satisfied := fun r q => q.1 == r ()

/-- Path going from `(a, 0)` to `(b, n)` on the interval `[0, n]`. -/
def line (a b : Int) (n : Int) : PathObj (Int × Int) Int := ⟨fun t => some (a, t), 0, n, (a, 0), (b, n), none⟩

/-- A set of constraints. -/
def world (k : Kind Int Int) (r : Int) : World (Int × Int) Int Int Unit := ⟨[⟨fun _ => k, fun _ => r⟩], []⟩

/-- C125: a copy of a path with given constraints (what path projectors return, src/path-projector/dichotomy.cc:132 and 138) shares these constraints: setting the
right-hand side of one path changes what the other returns. -/
theorem C125_shared_counterexample :
    let w := ((world .equality 0).run demo [.steer (some 0) (line 3 3 2), .construct (line 3 3 2) none, .copyWith 1 2])
    (w.eval demo 2 1).2 = some (3, 1) ∧ ((w.step demo (.fromConfig 2 (7, 0))).eval demo 2 1).2 = some (7, 1) ∧
      ((w.step demo (.fromConfig 2 (7, 0))).eval demo 0 1).2 = some (7, 1) := by decide +kernel

/-- C125: projecting a path that was built with other right-hand sides than those of its initial configuration changes this path. -/
theorem C125_project_counterexample :
    let w := ((world .equality 5).run demo [.construct (line 3 3 2) (some 0)])
    (w.eval demo 0 1).2 = some (5, 1) ∧ ((w.step demo (.projects (line 3 3 2) 1)).eval demo 0 1).2 = some (3, 1) := by decide +kernel

/-- C125: a path cut in pieces by a path projector: pieces hold the constraints of the whole path, but their parameter starts at 0: with a
right-hand side function (here the parameter itself), the second piece starts with value 0 where the whole path has value 2. -/
theorem C125_pieces_counterexample :
    let w := ((world (.varying id) 0).run demo [.steer (some 0) (line 0 0 4), .construct (line 0 0 2) none, .copyWith 1 2])
    (w.eval demo 0 2).2 = some (2, 2) ∧ (w.eval demo 2 0).2 = some (0, 0) := by decide +kernel

/-- Hypotheses: two paths steered from configurations with values 3 and 4; each keeps its own value after the other is built and evaluated, and after the constraints of the
steering method are changed. -/
example : (((world .equality 0).run demo [.steer (some 0) (line 3 3 2), .steer (some 0) (line 4 4 2), .eval 1 1, .check 0, .fromConfig 0 (9, 9)]).eval demo 0 1).2 = some (3, 1) := by
  decide +kernel
example : (world .equality 0).Wf := by intro p hp; simp [world] at hp
example : ∀ r q, (demo.project r q).2 = true → ∀ i, demo.value i (demo.project r q).1 = r i := by intro r q _ i; rfl
example : (((world .equality 0).run demo [.steer (some 0) (line 3 4 2)]).checkPath demo 0).2 = false := by decide +kernel
example : (((world .equality 0).run demo [.steer (some 0) (line 3 3 2)]).checkPath demo 0).2 = true := by decide +kernel

end Verif.Rhs
