import Verif.Problem.Obstacles
import Mathlib.Order.Basic
set_option linter.unusedSectionVars false

/-!
# Shapes that the collision tests read (C135)

A `CollisionPair` keeps a raw pointer to the geometry that its obstacle had when the pair was made.  `cutObstacle` gives another geometry to
the obstacle.  Geometries are objects of a heap here; the obstacle models and the user own them.
-/
namespace Verif.Shapes
open Verif.Solver

variable {N S : Type} [DecidableEq N]

/-- `CollisionPair` (collision-pair.hh:44-52) between a body of the robot and an obstacle: the object, and what its model gave for this
object when the pair was made: the name (ghost) and the address of the geometry, of which `computeCollision` keeps a raw pointer.
`none` if the object was out of the range of its model.  One pair stands for the pairs with every body of the robot. -/
structure Pair (N : Type) where
  obj : Obj
  seen : Option (N × Nat)
deriving DecidableEq

/-- Constructor of `CollisionPair`: collision-pair.hh:50-53. -/
def mkPair (s : State N Nat) (o : Obj) : Pair N := ⟨o, s.deref o⟩

/-- Pairs of the path validation and of each config validation of the problem. -/
structure Vals (N : Type) where
  pv : List (Pair N)
  cvs : List (List (Pair N))
deriving DecidableEq

/-- `Problem::addObstacle` calls `addObstacle` of the validations: problem.cc:190-202, obstacle-user.cc:60-75,
solid-solid-collision.cc:129-140. -/
def Vals.add (s : State N Nat) (v : Vals N) (o : Obj) : Vals N := ⟨v.pv ++ [mkPair s o], v.cvs.map (· ++ [mkPair s o])⟩

/-- `Problem::collisionObstacles (list)`: problem.cc:179-186. -/
def Vals.addAll (s : State N Nat) (v : Vals N) (l : List Obj) : Vals N := l.foldl (Vals.add s) v

/-- `resetProblem`: problem-solver.cc:612-631; `s` is the state after the call. -/
def Vals.reset (s : State N Nat) : Vals N := Vals.addAll s ⟨[], List.replicate s.types []⟩ s.col

/-- Effect of a call of the solver on the pairs; `s` and `s'` are the states before and after.  `cutObstacle` (problem-solver.cc:973-990)
leaves them as they are if a geometry remains. -/
def Vals.step (s s' : State N Nat) (e : Option Err) (v : Vals N) : Op N Nat → Vals N
  | .robot => Vals.reset s'
  | .resetProblem => Vals.reset s'
  | .add _ _ _ _ => if e = none ∧ s.prob ≠ none then v.add s' ⟨s.old.length, s.cur.length⟩ else v
  | .remove _ => if e = none then Vals.reset s' else v
  | .cut _ none => if e = none then Vals.reset s' else v
  | .cut _ (some _) => v
  | .pathValidationType => match s.prob with
    | none => v
    | some p => { v with pv := p.obs.map (mkPair s') }
  | .addConfigValidation => match s.prob with
    | none => v
    | some _ => Vals.addAll s' { v with cvs := List.replicate s'.types [] } s.col
  | .clearConfigValidations => { v with cvs := [] }
  | .initValidations => match s.prob with
    | none => v
    | some p => Vals.addAll s' ⟨p.obs.map (mkPair s'), List.replicate s.types []⟩ s.col
  | .initConfigValidation => match s.prob with
    | none => v
    | some _ => { v with cvs := List.replicate s.types [] }

/-- The solver, the pairs, the pairs of the validations that the user still has, the geometries made so far (address and shape), and the
addresses for which the user has a shared pointer. -/
structure PS (N S : Type) where
  s : State N Nat
  v : Vals N
  kept : List (List (Pair N))
  heap : List S
  held : List Nat

def PS.init : PS N S := ⟨State.init, ⟨[], []⟩, [], [], []⟩

/-- What a user does: makes a geometry, drops a shared pointer, keeps the path validation of the problem, calls the solver; the second argument
of `cut` is the shape that `extract` (problem-solver.cc:982) leaves, in a new geometry. -/
inductive UOp (N S : Type) where
  | alloc (x : S)
  | drop (h : Nat)
  | keep
  | cut (n : N) (r : Option S)
  | call (op : Op N Nat)

/-- A call of the solver. -/
def PS.call (t : PS N S) (op : Op N Nat) : PS N S × Option Err :=
  let r := step t.s op
  ({ t with s := r.1, v := t.v.step t.s r.1 r.2 op }, r.2)

def PS.step (t : PS N S) : UOp N S → PS N S × Option Err
  | .alloc x => ({ t with heap := t.heap ++ [x], held := t.held ++ [t.heap.length] }, none)
  | .drop h => ({ t with held := t.held.erase h }, none)
  | .keep => ({ t with kept := t.kept ++ [t.v.pv] }, none)
  | .cut n none => t.call (.cut n none)
  | .cut n (some x) => { t with heap := t.heap ++ [x] }.call (.cut n (some t.heap.length))
  | .call op => t.call op

def PS.exec (t : PS N S) : List (UOp N S) → PS N S
  | [] => t
  | o :: l => PS.exec (t.step o).1 l

/-- A geometry exists as long as an obstacle model or the user has a shared pointer to it.  (A model exists as long as an object refers to it;
models that no object refers to are counted too.) -/
def PS.live (t : PS N S) (h : Nat) : Prop := h ∈ t.held ∨ ∃ m ∈ t.s.old ++ [t.s.cur], ∃ x ∈ m, x.2 = h

instance (t : PS N S) (h : Nat) : Decidable (t.live h) := by unfold PS.live; infer_instance

/-- The shape that `collide` (collision-pair.hh:55-82) reads through the raw pointer: `none` if the geometry does not exist any more. -/
def PS.tested (t : PS N S) (p : Pair N) : Option S :=
  p.seen.bind (fun x => if t.live x.2 then t.heap[x.2]? else none)

/-- The shape that `computeDistances` reads (distance-between-objects.cc:62-78): the geometry that the model has now. -/
def PS.measured (t : PS N S) (o : Obj) : Option S :=
  (t.s.deref o).bind (fun x => if t.live x.2 then t.heap[x.2]? else none)

/-! ## Specification -/

/-- Histories: the robot is set first, and again only if no obstacle is registered; geometries given to the solver are owned by the user at
this moment; `extract` leaves a part of the shape.  `L` is the list of registered obstacles (`Spec` of C57), `D` the names of the obstacles that
were cut since the validations were made. -/
inductive PRun [LE S] : PS N S → List (Live N Nat) → List N → Prop
  | start : PRun (PS.init.step (.call .robot)).1 [] []
  | alloc {t : PS N S} {L D} (h : PRun t L D) (x : S) : PRun (t.step (.alloc x)).1 L D
  | drop {t : PS N S} {L D} (h : PRun t L D) (g : Nat) : PRun (t.step (.drop g)).1 L D
  | keep {t : PS N S} {L D} (h : PRun t L D) : PRun (t.step .keep).1 L D
  | cutAway {t : PS N S} {L L' D} (h : PRun t L D) (n : N) {e : Option Err} (hs : Spec L (.cut n none) L' e) :
      PRun (t.step (.cut n none)).1 L' (if e = none then [] else D)
  | cut {t : PS N S} {L L' D} (h : PRun t L D) (n : N) (x : S) {e : Option Err} (hs : Spec L (.cut n (some t.heap.length)) L' e)
      (hx : ∀ y ∈ L, y.name = n → ∀ z, t.heap[y.geom]? = some z → x ≤ z) :
      PRun (t.step (.cut n (some x))).1 L' (n :: D)
  | add {t : PS N S} {L L' D} (h : PRun t L D) (n : N) (g : Nat) (c d : Bool) {e : Option Err} (hg : g ∈ t.held)
      (hs : Spec L (.add n g c d) L' e) : PRun (t.step (.call (.add n g c d))).1 L' D
  | remove {t : PS N S} {L L' D} (h : PRun t L D) (n : N) {e : Option Err} (hs : Spec L (.remove n) L' e) :
      PRun (t.step (.call (.remove n))).1 L' (if e = none then [] else D)
  | robot {t : PS N S} {D} (h : PRun t [] D) : PRun (t.step (.call .robot)).1 [] []
  | resetProblem {t : PS N S} {L D} (h : PRun t L D) : PRun (t.step (.call .resetProblem)).1 L []
  | initValidations {t : PS N S} {L D} (h : PRun t L D) : PRun (t.step (.call .initValidations)).1 L []
  | other {t : PS N S} {L D} (h : PRun t L D) (op : Op N Nat)
      (ho : op = .pathValidationType ∨ op = .addConfigValidation ∨ op = .clearConfigValidations ∨ op = .initConfigValidation) :
      PRun (t.step (.call op)).1 L D

/-- The registered obstacle of an object. -/
def At (s : State N Nat) (L : List (Live N Nat)) (o : Obj) (x : Live N Nat) : Prop := o.gen = s.old.length ∧ L[o.idx]? = some x

/-- All the pairs of the validations of the problem. -/
def Vals.pairs (v : Vals N) : List (Pair N) := v.pv ++ v.cvs.flatten

/-- Invariant of one pair: it was made for the obstacle that its object refers to; it has its geometry, unless the obstacle was cut since then
and the shape of the pair contains the one of the obstacle. -/
def Good [LE S] (t : PS N S) (L : List (Live N Nat)) (D : List N) (p : Pair N) : Prop :=
  ∃ x h z, At t.s L p.obj x ∧ p.seen = some (x.name, h) ∧ t.heap[h]? = some z ∧ (x.name ∉ D → h = x.geom) ∧
    ∀ w, t.heap[x.geom]? = some w → w ≤ z

structure PInv [LE S] (t : PS N S) (L : List (Live N Nat)) (D : List N) : Prop where
  inv : Inv t.s L
  heap : ∀ x ∈ L, x.geom < t.heap.length
  held : ∀ h ∈ t.held, h < t.heap.length
  good : ∀ p ∈ t.v.pairs, Good t L D p
  obs : ∀ p, t.s.prob = some p → ∀ o ∈ p.obs ++ p.dbo, ∃ x, At t.s L o x

/-! ## Proofs -/

theorem deref_cur {s : State N Nat} {L : List (Live N Nat)} (hi : Inv s L) {o : Obj} {x : Live N Nat} (h : At s L o x) :
    s.deref o = some (x.name, x.geom) := by
  unfold State.deref
  rw [h.1, List.getElem?_append_right (Nat.le_refl _)]
  simp [hi.cur, h.2]

theorem at_rank {s : State N Nat} {L : List (Live N Nat)} (f : Live N Nat → Bool) {o : Obj}
    (h : o ∈ (ranks f L).map (fun i => (⟨s.old.length, i⟩ : Obj))) : ∃ x, At s L o x := by
  obtain ⟨i, hi, rfl⟩ := List.mem_map.1 h
  exact ⟨_, rfl, List.getElem?_eq_getElem (ranks_lt f L i hi)⟩

theorem at_col {s : State N Nat} {L : List (Live N Nat)} (hi : Inv s L) {o : Obj} (h : o ∈ s.col) : ∃ x, At s L o x := by
  rw [hi.col] at h; exact at_rank _ h

theorem at_dist {s : State N Nat} {L : List (Live N Nat)} (hi : Inv s L) {o : Obj} (h : o ∈ s.dist) : ∃ x, At s L o x := by
  rw [hi.dist] at h; exact at_rank _ h

theorem at_mem {s : State N Nat} {L : List (Live N Nat)} {o : Obj} {x : Live N Nat} (h : At s L o x) : x ∈ L :=
  List.mem_of_getElem? h.2

theorem pairs_add (s : State N Nat) (v : Vals N) (o : Obj) {p : Pair N} (h : p ∈ (v.add s o).pairs) : p ∈ v.pairs ∨ p = mkPair s o := by
  simp only [Vals.pairs, Vals.add, List.mem_append, List.mem_flatten, List.mem_map, List.mem_singleton] at h ⊢
  rcases h with (h | h) | ⟨l, ⟨w, hw, rfl⟩, h⟩
  · exact Or.inl (Or.inl h)
  · exact Or.inr h
  · rcases List.mem_append.1 h with h | h
    · exact Or.inl (Or.inr ⟨w, hw, h⟩)
    · exact Or.inr (List.mem_singleton.1 h)

theorem pairs_addAll (s : State N Nat) (l : List Obj) (v : Vals N) {p : Pair N} (h : p ∈ (v.addAll s l).pairs) :
    p ∈ v.pairs ∨ ∃ o ∈ l, p = mkPair s o := by
  induction l generalizing v with
  | nil => exact Or.inl h
  | cons a l ih =>
    rcases ih (v.add s a) h with h | ⟨o, ho, h⟩
    · rcases pairs_add s v a h with h | h
      · exact Or.inl h
      · exact Or.inr ⟨a, by simp, h⟩
    · exact Or.inr ⟨o, by simp [ho], h⟩

theorem flatten_replicate_nil (n : Nat) : (List.replicate n ([] : List (Pair N))).flatten = [] := by simp

theorem pairs_reset (s : State N Nat) {p : Pair N} (h : p ∈ (Vals.reset s).pairs) : ∃ o ∈ s.col, p = mkPair s o := by
  rcases pairs_addAll s s.col _ h with h | h
  · simp [Vals.pairs] at h
  · exact h

variable [Preorder S]

theorem good_mk {t : PS N S} {L : List (Live N Nat)} {D : List N} (hi : Inv t.s L) (hh : ∀ x ∈ L, x.geom < t.heap.length) {o : Obj}
    {x : Live N Nat} (h : At t.s L o x) : Good t L D (mkPair t.s o) := by
  have hx := hh x (at_mem h)
  refine ⟨x, x.geom, t.heap[x.geom], h, deref_cur hi h, List.getElem?_eq_getElem hx, fun _ => rfl, fun w hw => ?_⟩
  rw [List.getElem?_eq_getElem hx] at hw
  cases hw
  exact le_refl _

/-- A reset makes good pairs of every list of obstacles. -/
theorem good_reset {t : PS N S} {L : List (Live N Nat)} {D : List N} (hi : Inv t.s L) (hh : ∀ x ∈ L, x.geom < t.heap.length) :
    ∀ p ∈ (Vals.reset t.s).pairs, Good t L D p := by
  intro p hp
  obtain ⟨o, ho, rfl⟩ := pairs_reset _ hp
  obtain ⟨x, hx⟩ := at_col hi ho
  exact good_mk hi hh hx

theorem reset_prob (s : State N Nat) : ∃ p, s.resetProblem.prob = some p ∧ p.obs = s.col ∧ p.dbo = s.dist := by
  refine ⟨_, rfl, ?_, rfl⟩
  show (Prob.collisionObstacles _ s.col).obs = s.col
  unfold Prob.collisionObstacles
  rw [fold_add]
  rfl

theorem obs_reset {s : State N Nat} {L : List (Live N Nat)} (hi : Inv s.resetProblem L) :
    ∀ p, s.resetProblem.prob = some p → ∀ o ∈ p.obs ++ p.dbo, ∃ x, At s.resetProblem L o x := by
  intro p hp o ho
  obtain ⟨q, hq, h1, h2⟩ := reset_prob s
  rw [hq] at hp
  cases hp
  rw [h1, h2] at ho
  rcases List.mem_append.1 ho with ho | ho
  · exact at_col hi ho
  · exact at_dist hi ho

theorem remove_cases (s : State N Nat) (n : N) (hp : s.prob ≠ none) :
    ((s.remove n).2 ≠ none ∧ (s.remove n).1 = s) ∨ ((s.remove n).2 = none ∧ ∃ s0, (s.remove n).1 = State.resetProblem s0) := by
  unfold State.remove
  cases s.id n with
  | none => exact Or.inl ⟨by simp, rfl⟩
  | some i =>
    cases hq : s.prob with
    | none => exact absurd hq hp
    | some p => exact Or.inr ⟨rfl, _, rfl⟩

theorem pinv_reset {t : PS N S} {s0 : State N Nat} {L : List (Live N Nat)} (D : List N) (hs : t.s = s0.resetProblem) (hi : Inv t.s L)
    (hh : ∀ x ∈ L, x.geom < t.heap.length) (hd : ∀ h ∈ t.held, h < t.heap.length) (hv : t.v = Vals.reset t.s) : PInv t L D :=
  ⟨hi, hh, hd, by rw [hv]; exact good_reset hi hh, by rw [hs]; rw [hs] at hi; exact obs_reset hi⟩

/-- The removal of an obstacle. -/
theorem pinv_removeLike {t : PS N S} {L L' : List (Live N Nat)} {D : List N} (h : PInv t L D) {op : Op N Nat} {n : N} {e : Option Err}
    (ho : op = .remove n ∨ op = .cut n none) (hs : Spec L op L' e) : PInv (t.call op).1 L' (if e = none then [] else D) := by
  obtain ⟨hi, he⟩ := inv_step h.inv hs
  have hstep : step t.s op = t.s.remove n := by
    rcases ho with rfl | rfl
    · rfl
    · simp only [step]
      cases hid : t.s.id n with
      | none => simp [State.remove, hid]
      | some i => rfl
  have hv : t.v.step t.s (step t.s op).1 (step t.s op).2 op = if (step t.s op).2 = none then Vals.reset (step t.s op).1 else t.v := by
    rcases ho with rfl | rfl <;> rfl
  have hL : ∀ x ∈ L', x ∈ L := by
    intro x hx
    rcases ho with rfl | rfl <;> cases hs <;> first | exact hx | (simp only [List.mem_append, List.mem_cons] at hx ⊢; tauto)
  have hh : ∀ x ∈ L', x.geom < t.heap.length := fun x hx => h.heap x (hL x hx)
  rcases remove_cases t.s n h.inv.prob with ⟨h1, h2⟩ | ⟨h1, s0, h2⟩
  · rw [← hstep] at h1 h2
    have hne : e ≠ none := by rw [← he]; exact h1
    have hLL : L' = L := by
      rcases ho with rfl | rfl <;> cases hs <;> first | rfl | exact absurd rfl hne
    subst hLL
    rw [if_neg hne]
    have ht : (t.call op).1 = t := by
      show PS.mk _ _ _ _ _ = t
      rw [hv, if_neg h1, h2]
    rw [ht]
    exact h
  · rw [← hstep] at h1 h2
    have hne : e = none := by rw [← he]; exact h1
    rw [if_pos hne]
    refine pinv_reset [] (s0 := s0) ?_ hi hh h.held ?_
    · exact h2
    · show t.v.step _ _ _ _ = _
      rw [hv, if_pos h1]
      rfl

/-- A change that leaves the obstacles, the models and the heap as they are. -/
theorem good_congr {t t' : PS N S} {L : List (Live N Nat)} {D : List N} (h1 : t'.s.old = t.s.old) (h2 : t'.heap = t.heap) {p : Pair N}
    (h : Good t L D p) : Good t' L D p := by
  obtain ⟨x, g, z, ha, hb, hc, hd, he⟩ := h
  exact ⟨x, g, z, ⟨by rw [h1]; exact ha.1, ha.2⟩, hb, by rw [h2]; exact hc, hd, by rw [h2]; exact he⟩

theorem at_congr {s s' : State N Nat} {L : List (Live N Nat)} {o : Obj} {x : Live N Nat} (h1 : s'.old = s.old) (h : At s L o x) : At s' L o x :=
  ⟨by rw [h1]; exact h.1, h.2⟩

/-- The heap grows, the obstacles stay. -/
theorem good_alloc {t t' : PS N S} {L : List (Live N Nat)} {D : List N} (hh : ∀ x ∈ L, x.geom < t.heap.length) (h1 : t'.s.old = t.s.old)
    {x : S} (h2 : t'.heap = t.heap ++ [x]) {p : Pair N} (h : Good t L D p) : Good t' L D p := by
  obtain ⟨y, g, z, ha, hb, hc, hd, he⟩ := h
  refine ⟨y, g, z, at_congr h1 ha, hb, ?_, hd, fun w hw => he w ?_⟩
  · rw [h2, List.getElem?_append_left (List.getElem?_eq_some_iff.1 hc).1]; exact hc
  · rw [h2, List.getElem?_append_left (hh y (at_mem ha))] at hw; exact hw

theorem good_weaken {t : PS N S} {L : List (Live N Nat)} {D : List N} {p : Pair N} (n : N) (h : Good t L D p) : Good t L (n :: D) p := by
  obtain ⟨x, g, z, ha, hb, hc, hd, he⟩ := h
  exact ⟨x, g, z, ha, hb, hc, fun hn => hd (fun hm => hn (by simp [hm])), he⟩

theorem pinv_cut {t : PS N S} {L L' : List (Live N Nat)} {D : List N} (h : PInv t L D) {n : N} {x : S} {e : Option Err}
    (hs : Spec L (.cut n (some t.heap.length)) L' e) (hx : ∀ y ∈ L, y.name = n → ∀ z, t.heap[y.geom]? = some z → x ≤ z) :
    PInv (t.step (.cut n (some x))).1 L' (n :: D) := by
  obtain ⟨hi, he⟩ := inv_step h.inv hs
  have hheld : ∀ g ∈ t.held, g < (t.heap ++ [x]).length := fun g hg => by have := h.held g hg; simp; omega
  have hold : (step t.s (.cut n (some t.heap.length))).1.old = t.s.old ∧
      (step t.s (.cut n (some t.heap.length))).1.prob = t.s.prob := by
    simp only [step]
    cases t.s.id n <;> exact ⟨rfl, rfl⟩
  cases hs with
  | @cutKeep A B y _ =>
    refine ⟨hi, ?_, hheld, ?_, ?_⟩
    · intro w hw
      show w.geom < (t.heap ++ [x]).length
      rw [List.length_append]
      rcases List.mem_append.1 hw with hw | hw
      · have := h.heap w (by simp [hw]); simp; omega
      · rcases List.mem_cons.1 hw with rfl | hw
        · simp
        · have := h.heap w (by simp [hw]); simp; omega
    · intro p hp
      have hp : p ∈ t.v.pairs := hp
      obtain ⟨w, g, z, ha, hb, hc, hd, hle⟩ := h.good p hp
      have hc' : (t.heap ++ [x])[g]? = some z := by
        rw [List.getElem?_append_left (List.getElem?_eq_some_iff.1 hc).1]; exact hc
      by_cases hidx : p.obj.idx = A.length
      · have hw : w = y := by
          have := ha.2
          rw [hidx] at this
          simpa using this.symm
        subst hw
        refine ⟨{ w with geom := t.heap.length }, g, z, ⟨by rw [ha.1]; exact congrArg _ hold.1.symm, by rw [hidx]; simp⟩, hb, hc',
          fun hn => absurd (by simp) hn, fun v hv => ?_⟩
        have hv : (t.heap ++ [x])[t.heap.length]? = some v := hv
        rw [List.getElem?_concat_length] at hv
        cases hv
        have hwlt := h.heap w (by simp)
        exact le_trans (hx w (by simp) rfl _ (List.getElem?_eq_getElem hwlt)) (hle _ (List.getElem?_eq_getElem hwlt))
      · refine ⟨w, g, z, ⟨by rw [ha.1]; exact congrArg _ hold.1.symm, ?_⟩, hb, hc', fun hn => hd (fun hm => hn (by simp [hm])), fun v hv => ?_⟩
        · rw [← ha.2]
          rcases Nat.lt_or_gt_of_ne hidx with hlt | hgt
          · rw [List.getElem?_append_left hlt, List.getElem?_append_left hlt]
          · rw [List.getElem?_append_right (by omega), List.getElem?_append_right (by omega)]
            obtain ⟨k, hk⟩ : ∃ k, p.obj.idx - A.length = k + 1 := ⟨p.obj.idx - A.length - 1, by omega⟩
            rw [hk]
            simp
        · have hv : (t.heap ++ [x])[w.geom]? = some v := hv
          rw [List.getElem?_append_left (h.heap w (at_mem ha))] at hv
          exact hle v hv
    · intro q hq o ho
      have hq : t.s.prob = some q := by rw [← hold.2]; exact hq
      obtain ⟨w, hw⟩ := h.obs q hq o ho
      have hlt := (List.getElem?_eq_some_iff.1 hw.2).1
      have hlt' : o.idx < (A ++ { y with geom := t.heap.length } :: B).length := by
        rw [List.length_append, List.length_cons] at hlt ⊢; exact hlt
      exact ⟨_, by rw [hw.1]; exact congrArg _ hold.1.symm, List.getElem?_eq_getElem hlt'⟩
  | cutThrows hn =>
    refine ⟨hi, ?_, hheld, ?_, ?_⟩
    · intro w hw
      have := h.heap w hw
      show w.geom < (t.heap ++ [x]).length
      simp; omega
    · intro p hp
      exact good_weaken n (good_alloc (t' := (t.step (.cut n (some x))).1) h.heap hold.1 rfl (h.good p hp))
    · intro q hq o ho
      have hq : t.s.prob = some q := by rw [← hold.2]; exact hq
      obtain ⟨w, hw⟩ := h.obs q hq o ho
      exact ⟨w, at_congr hold.1 hw⟩

theorem pinv_add {t : PS N S} {L L' : List (Live N Nat)} {D : List N} (h : PInv t L D) {n : N} {g : Nat} {c d : Bool} {e : Option Err}
    (hg : g ∈ t.held) (hs : Spec L (.add n g c d) L' e) : PInv (t.step (.call (.add n g c d))).1 L' D := by
  obtain ⟨hi, he⟩ := inv_step h.inv hs
  cases hs with
  | addThrows x hx hxn =>
    have h1 : (step t.s (.add n g c d)).1 = t.s := by
      subst hxn
      obtain ⟨A, B, rfl⟩ := List.append_of_mem hx
      simp only [step, State.add, inv_id_some h.inv]
    have ht : (t.step (.call (.add n g c d))).1 = t := by
      show PS.mk _ _ _ _ _ = t
      have : t.v.step t.s (step t.s (.add n g c d)).1 (step t.s (.add n g c d)).2 (.add n g c d) = t.v := by
        simp only [Vals.step]
        rw [he, if_neg (by simp)]
      rw [this, h1]
    rw [ht]
    exact h
  | add hn =>
    obtain ⟨q, hq⟩ := Option.ne_none_iff_exists'.1 h.inv.prob
    have hold : (step t.s (.add n g c d)).1.old = t.s.old ∧ (step t.s (.add n g c d)).1.prob =
        some { q.addObstacle ⟨t.s.old.length, t.s.cur.length⟩ with dbo := q.dbo ++ [⟨t.s.old.length, t.s.cur.length⟩] } := by
      simp only [step, State.add, inv_id_none h.inv hn]
      rw [if_neg (fun hh => h.inv.prob hh.2), hq]
      exact ⟨rfl, rfl⟩
    have hlen : t.s.cur.length = L.length := by rw [h.inv.cur, List.length_map]
    have hheap : ∀ x ∈ L ++ [⟨n, g, c, d⟩], x.geom < t.heap.length := by
      intro x hx
      rcases List.mem_append.1 hx with hx | hx
      · exact h.heap x hx
      · rw [List.mem_singleton.1 hx]
        exact h.held g hg
    have hnew : At (step t.s (.add n g c d)).1 (L ++ [⟨n, g, c, d⟩]) ⟨t.s.old.length, t.s.cur.length⟩ ⟨n, g, c, d⟩ :=
      ⟨by rw [hold.1], by rw [hlen]; simp⟩
    have hkeep : ∀ {o : Obj} {x : Live N Nat}, At t.s L o x → At (step t.s (.add n g c d)).1 (L ++ [⟨n, g, c, d⟩]) o x := by
      intro o x hx
      refine ⟨by rw [hold.1]; exact hx.1, ?_⟩
      rw [List.getElem?_append_left (List.getElem?_eq_some_iff.1 hx.2).1]
      exact hx.2
    refine ⟨hi, hheap, h.held, ?_, ?_⟩
    · intro p hp
      have hp : p ∈ (t.v.step t.s (step t.s (.add n g c d)).1 (step t.s (.add n g c d)).2 (.add n g c d)).pairs := hp
      simp only [Vals.step] at hp
      rw [he, if_pos ⟨rfl, h.inv.prob⟩] at hp
      rcases pairs_add _ _ _ hp with hp | rfl
      · obtain ⟨x, gg, z, ha, hb, hc, hd, hle⟩ := h.good p hp
        exact ⟨x, gg, z, hkeep ha, hb, hc, hd, hle⟩
      · exact good_mk (t := (t.step (.call (.add n g c d))).1) hi hheap hnew
    · intro r hr o ho
      have hr : (step t.s (.add n g c d)).1.prob = some r := hr
      rw [hold.2] at hr
      cases hr
      simp only [Prob.addObstacle, List.mem_append, List.mem_singleton] at ho
      rcases ho with (ho | rfl) | (ho | rfl)
      · obtain ⟨x, hx⟩ := h.obs q hq o (by simp [ho]); exact ⟨x, hkeep hx⟩
      · exact ⟨_, hnew⟩
      · obtain ⟨x, hx⟩ := h.obs q hq o (by simp [ho]); exact ⟨x, hkeep hx⟩
      · exact ⟨_, hnew⟩

theorem obs_addAll (p : Prob) (l : List Obj) : (p.collisionObstacles l).obs = l ∧ (p.collisionObstacles l).dbo = p.dbo := by
  unfold Prob.collisionObstacles
  rw [fold_add]
  exact ⟨rfl, rfl⟩

theorem pinv_init {t : PS N S} {L : List (Live N Nat)} {D : List N} (h : PInv t L D) : PInv (t.step (.call .initValidations)).1 L [] := by
  obtain ⟨hi, -⟩ := inv_step h.inv (.initValidations L)
  obtain ⟨q, hq⟩ := Option.ne_none_iff_exists'.1 h.inv.prob
  have h1 : (step t.s .initValidations).1 =
      { t.s with prob := some ((q.initPathValidation.initConfigValidation t.s.types).collisionObstacles t.s.col) } := by
    simp only [step, hq]
  have hold : (step t.s .initValidations).1.old = t.s.old := by rw [h1]
  refine ⟨hi, h.heap, h.held, ?_, ?_⟩
  · intro p hp
    have hp : p ∈ (t.v.step t.s (step t.s .initValidations).1 (step t.s .initValidations).2 .initValidations).pairs := hp
    simp only [Vals.step, hq] at hp
    have hgood : ∀ o x, At t.s L o x → Good (t.step (.call .initValidations)).1 L [] (mkPair (step t.s .initValidations).1 o) := by
      intro o x hx
      exact good_mk (t := (t.step (.call .initValidations)).1) hi h.heap (at_congr hold hx)
    rcases pairs_addAll _ _ _ hp with hp | ⟨o, ho, rfl⟩
    · simp only [Vals.pairs, flatten_replicate_nil, List.append_nil, List.mem_map] at hp
      obtain ⟨o, ho, rfl⟩ := hp
      obtain ⟨x, hx⟩ := h.obs q hq o (by simp [ho])
      exact hgood o x hx
    · obtain ⟨x, hx⟩ := at_col h.inv ho
      exact hgood o x hx
  · intro r hr o ho
    have hr : (step t.s .initValidations).1.prob = some r := hr
    rw [h1] at hr
    cases hr
    obtain ⟨h2, h3⟩ := obs_addAll (q.initPathValidation.initConfigValidation t.s.types) t.s.col
    rw [h2, h3] at ho
    have : ∃ x, At t.s L o x := by
      rcases List.mem_append.1 ho with ho | ho
      · exact at_col h.inv ho
      · exact h.obs q hq o (List.mem_append.2 (Or.inr ho))
    obtain ⟨x, hx⟩ := this
    exact ⟨x, at_congr hold hx⟩

theorem pinv_other {t : PS N S} {L : List (Live N Nat)} {D : List N} (h : PInv t L D) {op : Op N Nat}
    (ho : op = .pathValidationType ∨ op = .addConfigValidation ∨ op = .clearConfigValidations ∨ op = .initConfigValidation) :
    PInv (t.step (.call op)).1 L D := by
  obtain ⟨q, hq⟩ := Option.ne_none_iff_exists'.1 h.inv.prob
  have hspec : Spec L op L none := by
    rcases ho with rfl | rfl | rfl | rfl
    · exact .pathValidationType L
    · exact .addConfigValidation L
    · exact .clearConfigValidations L
    · exact .initConfigValidation L
  obtain ⟨hi, -⟩ := inv_step h.inv hspec
  have hold : (step t.s op).1.old = t.s.old := by
    rcases ho with rfl | rfl | rfl | rfl <;> simp only [step, hq, Option.map_some]
  have hpr : ∃ r, (step t.s op).1.prob = some r ∧ ∀ o ∈ r.obs ++ r.dbo, ∃ x, At t.s L o x := by
    have h0 := h.obs q hq
    rcases ho with rfl | rfl | rfl | rfl <;> simp only [step, hq, Option.map_some]
    · exact ⟨_, rfl, h0⟩
    · refine ⟨_, rfl, fun o ho => ?_⟩
      obtain ⟨h2, h3⟩ := obs_addAll (q.initConfigValidation (t.s.types + 1)) t.s.col
      rw [h2, h3] at ho
      rcases List.mem_append.1 ho with ho | ho
      · exact at_col h.inv ho
      · exact h0 o (List.mem_append.2 (Or.inr ho))
    · exact ⟨_, rfl, h0⟩
    · exact ⟨_, rfl, h0⟩
  have hgood : ∀ o x, At t.s L o x → Good (t.step (.call op)).1 L D (mkPair (step t.s op).1 o) := by
    intro o x hx
    exact good_mk (t := (t.step (.call op)).1) hi h.heap (at_congr hold hx)
  have hsame : ∀ p ∈ t.v.pairs, Good (t.step (.call op)).1 L D p := fun p hp =>
    good_congr (t := t) (t' := (t.step (.call op)).1) hold rfl (h.good p hp)
  refine ⟨hi, h.heap, h.held, ?_, ?_⟩
  · intro p hp
    have hp : p ∈ (t.v.step t.s (step t.s op).1 (step t.s op).2 op).pairs := hp
    rcases ho with rfl | rfl | rfl | rfl <;> simp only [Vals.step, hq] at hp
    · simp only [Vals.pairs, List.mem_append, List.mem_map] at hp
      rcases hp with ⟨o, ho, rfl⟩ | hp
      · obtain ⟨x, hx⟩ := h.obs q hq o (by simp [ho])
        exact hgood o x hx
      · exact hsame p (List.mem_append.2 (Or.inr hp))
    · rcases pairs_addAll _ _ _ hp with hp | ⟨o, ho, rfl⟩
      · simp only [Vals.pairs, flatten_replicate_nil, List.append_nil] at hp
        exact hsame p (List.mem_append.2 (Or.inl hp))
      · obtain ⟨x, hx⟩ := at_col h.inv ho
        exact hgood o x hx
    · simp only [Vals.pairs, List.flatten_nil, List.append_nil] at hp
      exact hsame p (List.mem_append.2 (Or.inl hp))
    · simp only [Vals.pairs, flatten_replicate_nil, List.append_nil] at hp
      exact hsame p (List.mem_append.2 (Or.inl hp))
  · intro r hr o ho
    have hr : (step t.s op).1.prob = some r := hr
    obtain ⟨r', hr', hob⟩ := hpr
    rw [hr'] at hr
    cases hr
    obtain ⟨x, hx⟩ := hob o ho
    exact ⟨x, at_congr hold hx⟩

theorem prun_inv {t : PS N S} {L : List (Live N Nat)} {D : List N} (h : PRun t L D) : PInv t L D := by
  induction h with
  | start =>
    refine ⟨⟨rfl, by simp, rfl, rfl, prob_reset _⟩, by simp, ?_, ?_, ?_⟩
    · intro h hh; exact absurd (show h ∈ ([] : List Nat) from hh) (by simp)
    · intro p hp
      obtain ⟨o, ho, -⟩ := pairs_reset (step (State.init : State N Nat) .robot).1
        (show p ∈ (Vals.reset (step (State.init : State N Nat) .robot).1).pairs from hp)
      exact absurd (show o ∈ ([] : List Obj) from ho) (by simp)
    · intro p hp o ho
      obtain ⟨q, hq, h1, h2⟩ := reset_prob (⟨[[]], [], [], [], 2, none⟩ : State N Nat)
      have hp : some q = some p := by rw [← hq]; exact hp
      cases hp
      rw [h1, h2] at ho
      simp at ho
  | @alloc t L D _ x ih =>
    refine ⟨ih.inv, ?_, ?_, fun p hp =>
      good_alloc (t := t) (t' := (t.step (.alloc x)).1) (x := x) ih.heap rfl rfl (ih.good p hp), ih.obs⟩
    · intro w hw
      have := ih.heap w hw
      show w.geom < (t.heap ++ [x]).length
      simp; omega
    · intro g hg
      show g < (t.heap ++ [x]).length
      rcases List.mem_append.1 (show g ∈ t.held ++ [t.heap.length] from hg) with hg | hg
      · have := ih.held g hg; simp; omega
      · rw [List.mem_singleton.1 hg]; simp
  | @drop t L D _ g ih =>
    refine ⟨ih.inv, ih.heap, fun k hk => ih.held k (List.mem_of_mem_erase (show k ∈ t.held.erase g from hk)),
      fun p hp => good_congr (t := t) rfl rfl (ih.good p hp), ih.obs⟩
  | keep _ ih => exact ⟨ih.inv, ih.heap, ih.held, fun p hp => good_congr rfl rfl (ih.good p hp), ih.obs⟩
  | cutAway _ n hs ih => exact pinv_removeLike ih (Or.inr rfl) hs
  | cut _ n x hs hx ih => exact pinv_cut ih hs hx
  | add _ n g c d hg hs ih => exact pinv_add ih hg hs
  | remove _ n hs ih => exact pinv_removeLike ih (Or.inl rfl) hs
  | @robot t D _ ih =>
    exact pinv_reset [] (s0 := { t.s with old := t.s.old ++ [t.s.cur], cur := [] }) rfl (inv_step ih.inv .robot).1 (by simp) ih.held rfl
  | @resetProblem t L D _ ih =>
    exact pinv_reset [] (s0 := t.s) rfl (inv_step ih.inv (.resetProblem L)).1 ih.heap ih.held rfl
  | initValidations _ ih => exact pinv_init ih
  | other _ op ho ih => exact pinv_other ih ho

theorem live_at {t : PS N S} {L : List (Live N Nat)} (hi : Inv t.s L) {x : Live N Nat} (hx : x ∈ L) : t.live x.geom :=
  Or.inr ⟨t.s.cur, by simp, (x.name, x.geom), by rw [hi.cur]; exact List.mem_map.2 ⟨x, hx, rfl⟩, rfl⟩

/-- C135: after every history, every collision test of the validations of the problem is made for a registered obstacle, and if this obstacle
was not cut since the validations were made, the test reads the shape that the obstacle has now, which exists. -/
theorem C135_current_partial {t : PS N S} {L : List (Live N Nat)} {D : List N} (h : PRun t L D) :
    ∀ p ∈ t.v.pairs, ∃ x ∈ L, ∃ g, p.seen = some (x.name, g) ∧ t.s.deref p.obj = some (x.name, x.geom) ∧
      (x.name ∉ D → ∃ w, t.heap[x.geom]? = some w ∧ t.tested p = some w) := by
  have hp := prun_inv h
  intro p hm
  obtain ⟨x, g, z, ha, hb, hc, hd, he⟩ := hp.good p hm
  refine ⟨x, at_mem ha, g, hb, deref_cur hp.inv ha, fun hn => ?_⟩
  have hx := hp.heap x (at_mem ha)
  refine ⟨_, List.getElem?_eq_getElem hx, ?_⟩
  unfold PS.tested
  rw [hb, hd hn, Option.bind_some, if_pos (live_at hp.inv (at_mem ha))]
  exact List.getElem?_eq_getElem hx

/-- C135: if the geometry of a pair exists, the test reads a shape that contains the one of the obstacle: with a collision predicate that is
monotone in the shape, no collision with the present shape is missed. -/
theorem C135_conservative_partial {t : PS N S} {L : List (Live N Nat)} {D : List N} (h : PRun t L D) (hit : S → Prop)
    (mono : ∀ a b, a ≤ b → hit a → hit b) :
    ∀ p ∈ t.v.pairs, ∃ x ∈ L, t.s.deref p.obj = some (x.name, x.geom) ∧ ∃ w, t.heap[x.geom]? = some w ∧
      ∀ z, t.tested p = some z → hit w → hit z := by
  have hp := prun_inv h
  intro p hm
  obtain ⟨x, g, z, ha, hb, hc, hd, he⟩ := hp.good p hm
  have hx := hp.heap x (at_mem ha)
  refine ⟨x, at_mem ha, deref_cur hp.inv ha, _, List.getElem?_eq_getElem hx, fun y hy hw => ?_⟩
  unfold PS.tested at hy
  rw [hb, Option.bind_some] at hy
  split at hy
  · rw [hc] at hy
    cases hy
    exact mono _ _ (he _ (List.getElem?_eq_getElem hx)) hw
  · cases hy

/-- C135: the computation of distances reads the present shape of a registered obstacle, after every history. -/
theorem C135_distance {t : PS N S} {L : List (Live N Nat)} {D : List N} (h : PRun t L D) :
    ∀ p, t.s.prob = some p → ∀ o ∈ p.dbo, ∃ x ∈ L, t.s.deref o = some (x.name, x.geom) ∧ ∃ w, t.heap[x.geom]? = some w ∧
      t.measured o = some w := by
  have hp := prun_inv h
  intro q hq o ho
  obtain ⟨x, ha⟩ := hp.obs q hq o (List.mem_append.2 (Or.inr ho))
  have hx := hp.heap x (at_mem ha)
  refine ⟨x, at_mem ha, deref_cur hp.inv ha, _, List.getElem?_eq_getElem hx, ?_⟩
  unfold PS.measured
  rw [deref_cur hp.inv ha, Option.bind_some, if_pos (live_at hp.inv (at_mem ha))]
  exact List.getElem?_eq_getElem hx

/-- The pairs are those of the objects known to the validations in the model of C74. -/
def Agree (t : PS N S) : Prop :=
  match t.s.prob with
  | none => t.v = ⟨[], []⟩
  | some p => t.v.pv.map (·.obj) = p.pv ∧ t.v.cvs.map (List.map (·.obj)) = p.cvs

theorem agree_add {v : Vals N} {p : Prob} (s : State N Nat) (o : Obj)
    (h : v.pv.map (·.obj) = p.pv ∧ v.cvs.map (List.map (·.obj)) = p.cvs) :
    (v.add s o).pv.map (·.obj) = (p.addObstacle o).pv ∧ (v.add s o).cvs.map (List.map (·.obj)) = (p.addObstacle o).cvs := by
  refine ⟨by simp [Vals.add, Prob.addObstacle, mkPair, h.1], ?_⟩
  simp only [Vals.add, Prob.addObstacle, ← h.2, List.map_map]
  apply List.map_congr_left
  intro l _
  simp [mkPair]

theorem agree_addAll (s : State N Nat) (l : List Obj) {v : Vals N} {p : Prob}
    (h : v.pv.map (·.obj) = p.pv ∧ v.cvs.map (List.map (·.obj)) = p.cvs) :
    (v.addAll s l).pv.map (·.obj) = (l.foldl Prob.addObstacle p).pv ∧
      (v.addAll s l).cvs.map (List.map (·.obj)) = (l.foldl Prob.addObstacle p).cvs := by
  induction l generalizing v p with
  | nil => exact h
  | cons o l ih => exact ih (agree_add s o h)

theorem agree_reset (s : State N Nat) (p : Prob) (hp : s.resetProblem.prob = some p) :
    (Vals.reset s.resetProblem).pv.map (·.obj) = p.pv ∧ (Vals.reset s.resetProblem).cvs.map (List.map (·.obj)) = p.cvs := by
  simp only [State.resetProblem, Option.some.injEq] at hp
  subst hp
  exact agree_addAll _ _ (p := { (⟨[], [], [], []⟩ : Prob).initPathValidation.initConfigValidation s.types with obs := [] })
    ⟨rfl, by simp [Prob.initConfigValidation, State.resetProblem]⟩

theorem map_mk (s : State N Nat) (l : List Obj) : (l.map (mkPair s)).map (·.obj) = l := by
  rw [List.map_map]
  exact List.map_id _

/-- C135: the pairs are those of the obstacles known to the validations (C74), after every history, without hypothesis. -/
theorem C135_known (ops : List (UOp N S)) : Agree (PS.exec (PS.init (N := N) (S := S)) ops) := by
  have hcall : ∀ (t : PS N S) (op : Op N Nat), Agree t → Agree (t.call op).1 := by
    intro t op h
    unfold Agree at h ⊢
    have hreset : ∀ s0 : State N Nat, (step t.s op).1 = s0.resetProblem →
        t.v.step t.s (step t.s op).1 (step t.s op).2 op = Vals.reset (step t.s op).1 →
        match (t.call op).1.s.prob with
        | none => (t.call op).1.v = ⟨[], []⟩
        | some p => (t.call op).1.v.pv.map (·.obj) = p.pv ∧ (t.call op).1.v.cvs.map (List.map (·.obj)) = p.cvs := by
      intro s0 h1 h2
      show match (step t.s op).1.prob with
        | none => t.v.step t.s (step t.s op).1 (step t.s op).2 op = ⟨[], []⟩
        | some p => (t.v.step t.s (step t.s op).1 (step t.s op).2 op).pv.map (·.obj) = p.pv ∧
            (t.v.step t.s (step t.s op).1 (step t.s op).2 op).cvs.map (List.map (·.obj)) = p.cvs
      rw [h2, h1]
      obtain ⟨q, hq, -⟩ := reset_prob s0
      rw [hq]
      exact agree_reset s0 q hq
    have hrem : ∀ n, step t.s op = t.s.remove n →
        t.v.step t.s (step t.s op).1 (step t.s op).2 op = (if (step t.s op).2 = none then Vals.reset (step t.s op).1 else t.v) →
        match (t.call op).1.s.prob with
        | none => (t.call op).1.v = ⟨[], []⟩
        | some p => (t.call op).1.v.pv.map (·.obj) = p.pv ∧ (t.call op).1.v.cvs.map (List.map (·.obj)) = p.cvs := by
      intro n h1 h2
      cases hp : t.s.prob with
      | none =>
        rw [hp] at h
        have h3 : (t.s.remove n).1.prob = none ∧ (t.s.remove n).2 ≠ none := by
          unfold State.remove
          cases t.s.id n with
          | none => exact ⟨hp, by simp⟩
          | some i => simp only [hp]; exact ⟨trivial, by simp⟩
        have h4 : (t.call op).1.s.prob = none := by
          show (step t.s op).1.prob = none
          rw [h1]; exact h3.1
        have h5 : (t.call op).1.v = t.v := by
          show t.v.step _ _ _ _ = _
          rw [h2, h1, if_neg h3.2]
        rw [h4, h5]
        exact h
      | some p =>
        rcases remove_cases t.s n (by rw [hp]; simp) with ⟨h3, h4⟩ | ⟨h3, s0, h4⟩
        · have h5 : (t.call op).1.s = t.s := by
            show (step t.s op).1 = t.s
            rw [h1, h4]
          have h6 : (t.call op).1.v = t.v := by
            show t.v.step _ _ _ _ = _
            rw [h2, h1, if_neg h3]
          rw [h5, h6]
          exact h
        · refine hreset s0 (by rw [h1, h4]) ?_
          rw [h2, h1, if_pos h3]
    cases op with
    | robot => exact hreset _ rfl rfl
    | resetProblem => exact hreset _ rfl rfl
    | remove n => exact hrem n rfl rfl
    | cut n r =>
      cases r with
      | none =>
        refine hrem n ?_ rfl
        simp only [step]
        cases hid : t.s.id n with
        | none => simp [State.remove, hid]
        | some i => rfl
      | some g =>
        have h1 : (t.call (.cut n (some g))).1.s.prob = t.s.prob := by
          show (step t.s (.cut n (some g))).1.prob = _
          simp only [step]
          cases t.s.id n <;> rfl
        rw [h1]
        exact h
    | add n g c d =>
      simp only [PS.call, Vals.step, step, State.add]
      cases hid : t.s.id n with
      | some i => simp only [reduceCtorEq, false_and, if_false]; exact h
      | none =>
        cases hp : t.s.prob with
        | none =>
          rw [hp] at h
          cases c <;> simp [h]
        | some p =>
          rw [hp] at h
          simp only [reduceCtorEq, and_false, if_false, Option.map_some, ne_eq, not_false_eq_true, and_self, if_true]
          exact agree_add _ _ h
    | pathValidationType =>
      simp only [PS.call, Vals.step, step]
      cases hp : t.s.prob with
      | none => rw [hp] at h; exact h
      | some p => rw [hp] at h; exact ⟨map_mk _ _, h.2⟩
    | addConfigValidation =>
      simp only [PS.call, Vals.step, step]
      cases hp : t.s.prob with
      | none => rw [hp] at h; exact h
      | some p =>
        rw [hp] at h
        exact agree_addAll _ _ (p := { p.initConfigValidation (t.s.types + 1) with obs := [] }) ⟨h.1, by simp [Prob.initConfigValidation]⟩
    | clearConfigValidations =>
      simp only [PS.call, Vals.step, step]
      cases hp : t.s.prob with
      | none => rw [hp] at h; simp [h]
      | some p => rw [hp] at h; exact ⟨h.1, rfl⟩
    | initValidations =>
      simp only [PS.call, Vals.step, step]
      cases hp : t.s.prob with
      | none => rw [hp] at h; simp only [hp]; exact h
      | some p =>
        exact agree_addAll _ _ (p := { p.initPathValidation.initConfigValidation t.s.types with obs := [] })
          ⟨map_mk _ _, by simp [Prob.initConfigValidation]⟩
    | initConfigValidation =>
      simp only [PS.call, Vals.step, step]
      cases hp : t.s.prob with
      | none => rw [hp] at h; simp only [hp]; exact h
      | some p => rw [hp] at h; exact ⟨h.1, by simp [Prob.initConfigValidation]⟩
  have key : ∀ (ops : List (UOp N S)) (t : PS N S), Agree t → Agree (PS.exec t ops) := by
    intro ops
    induction ops with
    | nil => intro t h; exact h
    | cons op ops ih =>
      intro t h
      refine ih _ ?_
      cases op with
      | alloc x => exact h
      | drop g => exact h
      | keep => exact h
      | cut n r =>
        cases r with
        | none => exact hcall t _ h
        | some x => exact hcall { t with heap := t.heap ++ [x] } _ h
      | call op => exact hcall t op h
  exact key ops _ rfl

/-! ## Witnesses: shapes are intervals `[0, k]`, given by `k` -/

/-- The history: the robot is set, a geometry is made and given as obstacle 7. -/
def begin7 : List (UOp Nat Nat) := [.call .robot, .alloc 10, .call (.add 7 0 true true)]

example : PRun (PS.exec (PS.init (N := Nat) (S := Nat)) (begin7 ++ [.cut 7 (some 4), .call .resetProblem])) [⟨7, 1, true, true⟩] [] :=
  .resetProblem (.cut (L := [] ++ ⟨7, 0, true, true⟩ :: []) (.add (.alloc .start 10) 7 0 true true (by decide) (.add (by simp))) 7 4
    (.cutKeep ⟨7, 0, true, true⟩ 1) (by intro y hy _ z hz; simp at hy; subst hy; cases hz; decide))

/-- After the cut and a reset the test reads the new shape. -/
example : (PS.exec (PS.init (N := Nat) (S := Nat)) (begin7 ++ [.cut 7 (some 4), .call .resetProblem])).v.pairs.map
    (PS.exec (PS.init (N := Nat) (S := Nat)) (begin7 ++ [.cut 7 (some 4), .call .resetProblem])).tested = [some 4, some 4, some 4] := by decide

/-- C135: after `cutObstacle` the collision tests read the shape before the cut, as long as the user owns it; the distances read the new one. -/
theorem C135_stale_counterexample :
    (PS.exec (PS.init (N := Nat) (S := Nat)) (begin7 ++ [.cut 7 (some 4)])).v.pairs.map
      (PS.exec (PS.init (N := Nat) (S := Nat)) (begin7 ++ [.cut 7 (some 4)])).tested = [some 10, some 10, some 10] ∧
    (PS.exec (PS.init (N := Nat) (S := Nat)) (begin7 ++ [.cut 7 (some 4)])).measured ⟨1, 0⟩ = some 4 := by decide

/-- C135: if the user does not own the geometry any more, `cutObstacle` destroys it, and the next collision tests read it. -/
theorem C135_freed_counterexample :
    (PS.exec (PS.init (N := Nat) (S := Nat)) (begin7 ++ [.drop 0])).v.pairs.map
      (PS.exec (PS.init (N := Nat) (S := Nat)) (begin7 ++ [.drop 0])).tested = [some 10, some 10, some 10] ∧
    (PS.exec (PS.init (N := Nat) (S := Nat)) (begin7 ++ [.drop 0, .cut 7 (some 4)])).v.pairs.map
      (PS.exec (PS.init (N := Nat) (S := Nat)) (begin7 ++ [.drop 0, .cut 7 (some 4)])).tested = [none, none, none] := by decide

/-- C135: a path validation taken from the problem before the removal of an obstacle reads a destroyed geometry for the removed obstacle, and
places the geometry of another obstacle where a third one is, or out of the range of the model. -/
theorem C135_kept_counterexample :
    let ops : List (UOp Nat Nat) := [.call .robot, .alloc 10, .call (.add 7 0 true true), .alloc 20, .call (.add 8 1 true true), .alloc 30,
      .call (.add 9 2 true true), .drop 0, .keep, .call (.remove 7)]
    let t := PS.exec (PS.init (N := Nat) (S := Nat)) ops
    t.kept.map (fun l => l.map (fun p => (p.seen.map (·.1), t.tested p, (t.s.deref p.obj).map (·.1)))) =
      [[(some 7, none, some 8), (some 8, some 20, some 9), (some 9, some 30, none)]] := by decide

end Verif.Shapes
