import Mathlib.Algebra.Order.Group.Defs
import Mathlib.Algebra.Order.Ring.Defs
set_option linter.unusedSectionVars false

/-!
# Path projectors: common part (C49)

The four path projectors of the library (`Dichotomy`, `Progressive`, `Global`, `RecursiveHermite`) handle path vectors with the same loop.
The projection of a path that is not a path vector is a parameter `leaf`; it is modelled for each projector in the other files of this
directory.
-/
namespace Verif.Proj
variable {P K : Type}

/-- A path, as seen by the projectors: a path vector or another path. -/
inductive PathT (P : Type) where
  | leaf (p : P)
  | vec (l : List (PathT P))

/-- Projection of a path that is not a path vector: the returned Boolean and the value given to the output argument; `none` when the function
returns without assigning it. -/
abbrev LeafProj (P : Type) := P → Bool × Option (PathT P)

mutual
/-- `impl_apply`: dichotomy.cc:46-78, progressive.cc:88-123, global.cc:93-127, recursive-hermite.cc:70-107.  `proj` is the value of the output
argument before the call, `none` for a null pointer; `len` is `Path::length`. -/
def apply [Zero K] [LT K] [DecidableRel (α := K) (· < ·)] (len : PathT P → K) (leaf : LeafProj P) :
    PathT P → Option (PathT P) → Bool × Option (PathT P)
  | .leaf p, proj => match leaf p with
    | (b, none) => (b, proj)
    | (b, some x) => (b, some x)
  | .vec l, _ => let (b, res) := applyLoop len leaf l true none
    (b, some (.vec res))
/-- The loop on the pieces: dichotomy.cc:57-70, progressive.cc:102-115, global.cc:106-119, recursive-hermite.cc:86-99.  `first` is `i == 0`,
`part` the variable of this name.  Returns the pieces appended to `res`.  Appending a null pointer is undefined behaviour; it is modelled by
appending nothing, and excluded in the theorems by the assumption that a successful projection assigns its output. -/
def applyLoop [Zero K] [LT K] [DecidableRel (α := K) (· < ·)] (len : PathT P → K) (leaf : LeafProj P) :
    List (PathT P) → Bool → Option (PathT P) → Bool × List (PathT P)
  | [], _, _ => (true, [])
  | p :: l, first, part => match apply len leaf p part with
    | (false, none) => (false, [])
    | (false, some x) => if 0 < len x ∨ first = true then (false, [x]) else (false, [])
    | (true, part') => let (b, res) := applyLoop len leaf l false part'
      (b, part'.toList ++ res)
end

/-! ## Specification -/

section
variable [Zero K] [LT K] [DecidableRel (α := K) (· < ·)] (len : PathT P → K) (leaf : LeafProj P)

/-- Specification of the projection of a list of pieces `l`: the outputs of the pieces up to the first failing one, followed by the output of
the latter if it has one (and, unless it is the first of the list, a positive length). -/
inductive Spec (proj : PathT P → Bool × Option (PathT P) → Prop) : Bool → List (PathT P) → Bool → List (PathT P) → Prop
  | nil (first : Bool) : Spec proj first [] true []
  | ok {first : Bool} {p x : PathT P} {l res : List (PathT P)} {b : Bool} (hp : proj p (true, some x)) (hl : Spec proj false l b res) :
      Spec proj first (p :: l) b (x :: res)
  | stopNone {first : Bool} {p : PathT P} {l : List (PathT P)} (hp : proj p (false, none)) : Spec proj first (p :: l) false []
  | stop {first : Bool} {p x : PathT P} {l : List (PathT P)} (hp : proj p (false, some x)) (hx : 0 < len x ∨ first = true) :
      Spec proj first (p :: l) false [x]
  | stopEmpty {first : Bool} {p x : PathT P} {l : List (PathT P)} (hp : proj p (false, some x)) (hx : ¬ (0 < len x ∨ first = true)) :
      Spec proj first (p :: l) false []

/-- Projection of a path on its own, with a null output argument. -/
def Alone (p : PathT P) (r : Bool × Option (PathT P)) : Prop := apply len leaf p none = r

theorem apply_assigned {p : PathT P} (h : ∀ q, p = .leaf q → (leaf q).2 ≠ none) (a b : Option (PathT P)) :
    apply len leaf p a = apply len leaf p b := by
  cases p with
  | leaf q =>
    have := h q rfl
    unfold apply
    cases hl : leaf q with
    | mk x y =>
      rw [hl] at this
      cases y with
      | none => exact absurd rfl this
      | some y => rfl
  | vec l => unfold apply; rfl

/-- C49 (verdict): a path vector is reported as projected iff all its pieces are. -/
theorem C49_success (l : List (PathT P)) (proj : Option (PathT P)) :
    (apply len leaf (.vec l) proj).1 = true ↔ ∀ p ∈ l, (apply len leaf p none).1 = true := by
  have hb : ∀ (p : PathT P) (a b : Option (PathT P)), (apply len leaf p a).1 = (apply len leaf p b).1 := by
    intro p a b
    cases p with
    | leaf q =>
      unfold apply
      cases hl : leaf q with
      | mk x y => cases y <;> rfl
    | vec l => unfold apply; rfl
  have key : ∀ (l : List (PathT P)) (first : Bool) (part : Option (PathT P)),
      (applyLoop len leaf l first part).1 = true ↔ ∀ p ∈ l, (apply len leaf p none).1 = true := by
    intro l
    induction l with
    | nil => intro first part; simp [applyLoop]
    | cons p l ih =>
      intro first part
      have hp := hb p part none
      unfold applyLoop
      cases ha : apply len leaf p part with
      | mk b x =>
        rw [ha] at hp
        simp only [List.forall_mem_cons]
        rw [← hp]
        cases b with
        | false =>
          cases x with
          | none => simp
          | some x =>
            dsimp only
            split <;> simp
        | true =>
          dsimp only
          rw [ih]
          simp
  have h : (apply len leaf (.vec l) proj).1 = (applyLoop len leaf l true none).1 := by
    rw [apply]
  rw [h]
  exact key l true none

/-- C49: if the projection of a path always assigns its output, the projection of a path vector is the one of the specification: the
projected pieces up to the first failing one, and the partial result of the latter. -/
theorem C49_vector_partial (hl : ∀ p, (leaf p).2 ≠ none) (l : List (PathT P)) (proj : Option (PathT P)) :
    ∃ b res, apply len leaf (.vec l) proj = (b, some (.vec res)) ∧ Spec len (Alone len leaf) true l b res := by
  have hsome : ∀ (p : PathT P) (a : Option (PathT P)), (apply len leaf p a).2 ≠ none := by
    intro p a
    cases p with
    | leaf q =>
      have := hl q
      unfold apply
      cases hq : leaf q with
      | mk x y => rw [hq] at this; cases y with
        | none => exact absurd rfl this
        | some y => simp
    | vec l => unfold apply; simp
  have key : ∀ (l : List (PathT P)) (first : Bool) (part : Option (PathT P)),
      Spec len (Alone len leaf) first l (applyLoop len leaf l first part).1 (applyLoop len leaf l first part).2 := by
    intro l
    induction l with
    | nil => intro first part; simp only [applyLoop]; exact .nil first
    | cons p l ih =>
      intro first part
      have ha : Alone len leaf p (apply len leaf p part) := apply_assigned len leaf (fun q _ => hl q) none part
      have hs := hsome p part
      unfold applyLoop
      cases hx : apply len leaf p part with
      | mk b x =>
        rw [hx] at ha hs
        cases x with
        | none => exact absurd rfl hs
        | some x =>
          cases b with
          | false =>
            dsimp only
            by_cases h : 0 < len x ∨ first = true
            · rw [if_pos h]; exact .stop ha h
            · rw [if_neg h]; exact .stopEmpty ha h
          | true =>
            exact .ok ha (ih false (some x))
  refine ⟨(applyLoop len leaf l true none).1, (applyLoop len leaf l true none).2, ?_, key l true none⟩
  unfold apply
  rfl

/-- The only property of paths used below: an initial and a final configuration. -/
structure Ends (P C : Type) where
  ini : P → C
  fin : P → C

/-- `p` goes continuously from `a` to `b`: the pieces follow each other. -/
inductive Joins {C : Type} (E : Ends P C) : C → PathT P → C → Prop
  | leaf (p : P) : Joins E (E.ini p) (.leaf p) (E.fin p)
  | nil (a : C) : Joins E a (.vec []) a
  | cons {a b c : C} {p : PathT P} {l : List (PathT P)} (hp : Joins E a p b) (hl : Joins E b (.vec l) c) : Joins E a (.vec (p :: l)) c

theorem Joins.leaf_ends {C : Type} {E : Ends P C} {a b : C} {p : P} (h : Joins E a (.leaf p) b) : a = E.ini p ∧ b = E.fin p := by
  generalize hx : PathT.leaf p = x at h
  cases h with
  | leaf p => cases hx; exact ⟨rfl, rfl⟩
  | nil => cases hx
  | cons => cases hx

theorem Joins.cons_inv {C : Type} {E : Ends P C} {a c : C} {p : PathT P} {l : List (PathT P)} (h : Joins E a (.vec (p :: l)) c) :
    ∃ b, Joins E a p b ∧ Joins E b (.vec l) c := by
  generalize hx : PathT.vec (p :: l) = x at h
  cases h with
  | leaf p => cases hx
  | nil => cases hx
  | cons hp hl => cases hx; exact ⟨_, hp, hl⟩

/-- A leaf projection that keeps the ends: a success gives a path between the same ends, a failure that assigns its output gives a path that
starts at the same configuration. -/
def KeepsEnds {C : Type} (E : Ends P C) (leaf : LeafProj P) : Prop :=
  ∀ p, match leaf p with
    | (true, some x) => Joins E (E.ini p) x (E.fin p)
    | (true, none) => False
    | (false, some x) => ∃ c, Joins E (E.ini p) x c
    | (false, none) => True

/-- C49 (continuity): if the projection of a piece keeps the ends and always assigns its output, then the projection of a continuous path vector
is continuous and starts at the same configuration, and ends at the same configuration when it succeeds. -/
theorem C49_continuous_partial {C : Type} (E : Ends P C) (hk : KeepsEnds E leaf) (hl : ∀ p, (leaf p).2 ≠ none) {a b : C} {l : List (PathT P)}
    (h : Joins E a (.vec l) b) (proj : Option (PathT P)) :
    ∃ ok res, apply len leaf (.vec l) proj = (ok, some (.vec res)) ∧ (ok = true → Joins E a (.vec res) b) ∧ ∃ c, Joins E a (.vec res) c := by
  have key : ∀ (a b : C) (p : PathT P), Joins E a p b → ∀ part,
      (∃ ok x, apply len leaf p part = (ok, some x) ∧ (ok = true → Joins E a x b) ∧ ∃ c, Joins E a x c) ∧
      (∀ l, p = .vec l → ∀ first part, ((applyLoop len leaf l first part).1 = true → Joins E a (.vec (applyLoop len leaf l first part).2) b) ∧
        ∃ c, Joins E a (.vec (applyLoop len leaf l first part).2) c) := by
    intro a b p hj
    induction hj with
    | leaf p =>
      intro part
      refine ⟨?_, by intro l hl; simp at hl⟩
      have h1 := hk p
      have h2 := hl p
      unfold apply
      cases hp : leaf p with
      | mk ok x =>
        rw [hp] at h1 h2
        cases x with
        | none => exact absurd rfl h2
        | some x =>
          cases ok with
          | false => exact ⟨false, x, rfl, by simp, h1⟩
          | true => exact ⟨true, x, rfl, fun _ => h1, _, h1⟩
    | nil a =>
      intro part
      refine ⟨⟨true, .vec [], ?_, fun _ => .nil a, a, .nil a⟩, ?_⟩
      · unfold apply applyLoop; rfl
      · intro l hl
        cases hl
        intro first part
        unfold applyLoop
        exact ⟨fun _ => .nil a, a, .nil a⟩
    | @cons a b c p l hp hl ihp ihl =>
      intro part
      have hloop : ∀ first part, ((applyLoop len leaf (p :: l) first part).1 = true → Joins E a (.vec (applyLoop len leaf (p :: l) first part).2) c) ∧
          ∃ d, Joins E a (.vec (applyLoop len leaf (p :: l) first part).2) d := by
        intro first part
        obtain ⟨ok, x, h1, h2, d, h3⟩ := (ihp part).1
        unfold applyLoop
        rw [h1]
        cases ok with
        | false =>
          dsimp only
          split
          · exact ⟨by simp, d, .cons h3 (.nil d)⟩
          · exact ⟨by simp, a, .nil a⟩
        | true =>
          dsimp only
          obtain ⟨k1, e, k2⟩ := (ihl none).2 l rfl false (some x)
          exact ⟨fun h => .cons (h2 rfl) (k1 h), e, .cons (h2 rfl) k2⟩
      refine ⟨?_, ?_⟩
      · refine ⟨(applyLoop len leaf (p :: l) true none).1, .vec (applyLoop len leaf (p :: l) true none).2, ?_, hloop true none⟩
        unfold apply; rfl
      · intro l' hl'
        cases hl'
        exact hloop
  refine ⟨(applyLoop len leaf l true none).1, (applyLoop len leaf l true none).2, ?_, (key a b _ h none).2 l rfl true none⟩
  unfold apply
  rfl

end

/-! ## The stale output -/

/-- Segments of the line; the projection fails without assigning its output when the end of the segment is beyond 10, as `Dichotomy` and
`Progressive` do when the end configuration does not satisfy the constraints (dichotomy.cc:88-90, progressive.cc:143). -/
def lineLeaf : LeafProj (Int × Int) := fun p => if p.2 ≤ 10 then (true, some (.leaf p)) else (false, none)

/-- length of a path made of segments -/
def lineLen : PathT (Int × Int) → Int
  | .leaf p => max (p.2 - p.1) (p.1 - p.2)
  | .vec _ => 1

def lineEnds : Ends (Int × Int) Int := ⟨Prod.fst, Prod.snd⟩

/-- C49: the output of the piece before the failing one is appended a second time, and the result is not continuous. -/
theorem C49_stale_counterexample :
    ∃ l : List (PathT (Int × Int)), Joins lineEnds 0 (.vec l) 20 ∧ KeepsEnds lineEnds lineLeaf ∧
      apply lineLen lineLeaf (.vec l) none = (false, some (.vec [.leaf (0, 5), .leaf (0, 5)])) ∧
      ¬ ∃ c, Joins lineEnds 0 (.vec [.leaf (0, 5), .leaf (0, 5)]) c := by
  refine ⟨[.leaf (0, 5), .leaf (5, 20)], ?_, ?_, ?_, ?_⟩
  · exact .cons (.leaf (0, 5)) (.cons (.leaf (5, 20)) (.nil _))
  · intro p
    unfold lineLeaf
    by_cases h : p.2 ≤ 10
    · rw [if_pos h]; exact .leaf p
    · rw [if_neg h]; trivial
  · simp [apply, applyLoop, lineLeaf, lineLen]
  · rintro ⟨c, h⟩
    obtain ⟨b, h1, h2⟩ := h.cons_inv
    obtain ⟨b', h3, -⟩ := h2.cons_inv
    have e1 := h1.leaf_ends.2
    have e2 := h3.leaf_ends.1
    rw [e1] at e2
    simp [lineEnds] at e2

/-- A projection that always assigns its output (the whole segment if its end is before 10, else the segment up to 10). -/
def cutLeaf : LeafProj (Int × Int) := fun p => if p.2 ≤ 10 then (true, some (.leaf p)) else (false, some (.leaf (p.1, 10)))

/-- hypotheses of `C49_vector_partial` and `C49_continuous_partial` -/
example : (∀ p, (cutLeaf p).2 ≠ none) ∧ KeepsEnds lineEnds cutLeaf ∧ Joins lineEnds 0 (.vec [.leaf (0, 5), .leaf (5, 20)]) 20 ∧
    apply lineLen cutLeaf (.vec [.leaf (0, 5), .leaf (5, 20)]) none = (false, some (.vec [.leaf (0, 5), .leaf (5, 10)])) := by
  refine ⟨?_, ?_, ?_, ?_⟩
  · intro p; unfold cutLeaf; split <;> simp
  · intro p
    unfold cutLeaf
    by_cases h : p.2 ≤ 10
    · rw [if_pos h]; exact .leaf p
    · rw [if_neg h]; exact ⟨10, .leaf (p.1, 10)⟩
  · exact .cons (.leaf (0, 5)) (.cons (.leaf (5, 20)) (.nil _))
  · simp [apply, applyLoop, cutLeaf, lineLen]

end Verif.Proj
