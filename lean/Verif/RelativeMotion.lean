import Mathlib.Logic.Relation
import Mathlib.Data.List.FinRange
import Mathlib.Tactic.Common

/-!
# Relative motion matrix, C44

`RelativeMotionType` is an enum with `Constrained = 0 < Parameterized = 1 < Unconstrained = 2`
(include/hpp/core/relative-motion.hh), modelled by `Nat`.  Joints are `Fin n` (`N = dev->model().joints.size()`).
-/
namespace Verif.RelMotion
variable {n : Nat}

scoped notation "Constrained" => (0 : Nat)
scoped notation "Parameterized" => (1 : Nat)
scoped notation "Unconstrained" => (2 : Nat)

abbrev Mat (n : Nat) := Fin n → Fin n → Nat

/-- `RelativeMotion::matrix`: src/relative-motion.cc:62-69. -/
def initMatrix : Mat n := fun i j => if i = j then Constrained else Unconstrained

/-- `symSet`: src/relative-motion.cc:45-48. -/
def symSet (m : Mat n) (i0 i1 : Fin n) (t : Nat) : Mat n :=
  fun a b => if (a = i0 ∧ b = i1) ∨ (a = i1 ∧ b = i0) then t else m a b

/-- `symSetNoDowngrade`: src/relative-motion.cc:52-59. -/
def symSetNoDowngrade (m : Mat n) (i0 i1 : Fin n) (t : Nat) : Mat n :=
  if t < m i0 i1 then symSet m i0 i1 t else m

/-- Body of the loop "i1 to i3": src/relative-motion.cc:117-125. -/
def step1 (param : Bool) (i1 i2 : Fin n) (m : Mat n) (i3 : Fin n) : Mat n :=
  if i3 = i1 then m else if i3 = i2 then m
  else if m i2 i3 ≠ Unconstrained then
    symSetNoDowngrade m i1 i3 (if !param ∧ m i2 i3 = Constrained then Constrained else Parameterized)
  else m

/-- Body of the inner loop "from i0 to i3": src/relative-motion.cc:138-149. -/
def step3 (param : Bool) (i1 i2 i0 : Fin n) (m : Mat n) (i3 : Fin n) : Mat n :=
  if i3 = i2 then m else if i3 = i1 then m else if i3 = i0 then m
  else if m i2 i3 = Unconstrained then m
  else symSetNoDowngrade m i0 i3
    (if !param ∧ m i0 i1 = Constrained ∧ m i2 i3 = Constrained then Constrained else Parameterized)

/-- "i0 to i2": src/relative-motion.cc:129-134. -/
def step2a (param : Bool) (i1 i2 : Fin n) (m : Mat n) (i0 : Fin n) : Mat n :=
  if m i0 i1 ≠ Unconstrained then
    symSetNoDowngrade m i0 i2 (if !param ∧ m i0 i1 = Constrained then Constrained else Parameterized)
  else m

/-- Body of the loop on `i0`: src/relative-motion.cc:126-150. -/
def step2 (param : Bool) (i1 i2 : Fin n) (m : Mat n) (i0 : Fin n) : Mat n :=
  if i0 = i2 then m else if i0 = i1 then m
  else
    let m := step2a param i1 i2 m i0
    if m i0 i1 = Unconstrained then m
    else (List.finRange n).foldl (step3 param i1 i2 i0) m

/-- `recurseSetRelMotion`: src/relative-motion.cc:105-151. -/
def recurse (m : Mat n) (i1 i2 : Fin n) (type : Nat) : Mat n :=
  let param : Bool := type == Parameterized
  if m i1 i2 ≤ type then m
  else
    let m := symSet m i1 i2 type
    let m := (List.finRange n).foldl (step1 param i1 i2) m
    (List.finRange n).foldl (step2 param i1 i2) m

/-- A numerical constraint as seen by `fromConstraint`: the pair of joints whose relative pose it fully constrains
(`doesConstrainRelPoseBetween`, two equal indices when there is none) and whether its right hand side is
constant (`parameterSize() == 0`). -/
structure Cons (n : Nat) where
  j1 : Fin n
  j2 : Fin n
  cst : Bool

/-- One iteration of the loop of `fromConstraint`: src/relative-motion.cc:86-102. -/
def record (m : Mat n) (c : Cons n) : Mat n :=
  if c.j1 = c.j2 then m else recurse m c.j1 c.j2 (if c.cst then Constrained else Parameterized)

/-- `RelativeMotion::fromConstraint`, for a matrix of the right size (the code throws otherwise):
src/relative-motion.cc:71-103. -/
def fromConstraint (m : Mat n) (cs : List (Cons n)) : Mat n := cs.foldl record m

/-! ## Specification -/

/-- `a` and `b` are the two joints of a recorded constraint, with constant right hand side if `onlyCst`. -/
def Joined (cs : List (Cons n)) (onlyCst : Bool) (a b : Fin n) : Prop :=
  ∃ c ∈ cs, (onlyCst = true → c.cst = true) ∧ ((c.j1 = a ∧ c.j2 = b) ∨ (c.j1 = b ∧ c.j2 = a))

/-- `a` and `b` are linked through a chain of recorded constraints, all with constant right hand side if `onlyCst`. -/
def Linked (cs : List (Cons n)) (onlyCst : Bool) (a b : Fin n) : Prop :=
  Relation.ReflTransGen (Joined cs onlyCst) a b

/-! ## Lemmas -/

theorem joined_symm {cs : List (Cons n)} {o : Bool} {a b : Fin n} (h : Joined cs o a b) : Joined cs o b a := by
  obtain ⟨c, hc, h1, h2⟩ := h
  exact ⟨c, hc, h1, h2.symm⟩

theorem linked_symm {cs : List (Cons n)} {o : Bool} {a b : Fin n} (h : Linked cs o a b) : Linked cs o b a := by
  unfold Linked at *
  induction h with
  | refl => exact .refl
  | tail _ hyz ih => exact Relation.ReflTransGen.head (joined_symm hyz) ih

theorem linked_trans {cs : List (Cons n)} {o : Bool} {a b c : Fin n} (h1 : Linked cs o a b) (h2 : Linked cs o b c) :
    Linked cs o a c := Relation.ReflTransGen.trans h1 h2

theorem linked_mono {cs cs' : List (Cons n)} (h : ∀ c ∈ cs, c ∈ cs') {o : Bool} {a b : Fin n} (hl : Linked cs o a b) :
    Linked cs' o a b :=
  Relation.ReflTransGen.mono (fun _ _ ⟨c, hc, h'⟩ => ⟨c, h c hc, h'⟩) _ _ hl

theorem linked_weaken {cs : List (Cons n)} {a b : Fin n} (hl : Linked cs true a b) : Linked cs false a b :=
  Relation.ReflTransGen.mono (fun _ _ ⟨c, hc, _, h'⟩ => ⟨c, hc, by simp, h'⟩) _ _ hl

/-- Entries at most `t` are linked at level `t`. -/
structure Sound (cs : List (Cons n)) (m : Mat n) : Prop where
  cst : ∀ i j, m i j = 0 → Linked cs true i j
  any : ∀ i j, m i j ≤ 1 → Linked cs false i j

structure Basic (m : Mat n) : Prop where
  symm : ∀ i j, m i j = m j i
  le2 : ∀ i j, m i j ≤ 2

theorem symSet_basic {m : Mat n} (h : Basic m) (i j : Fin n) {t : Nat} (ht : t ≤ 2) : Basic (symSet m i j t) := by
  constructor
  · intro a b
    unfold symSet
    by_cases h1 : (a = i ∧ b = j) ∨ (a = j ∧ b = i)
    · rw [if_pos h1, if_pos (by tauto)]
    · rw [if_neg h1, if_neg (by tauto)]; exact h.symm a b
  · intro a b
    unfold symSet
    split
    · exact ht
    · exact h.le2 a b

theorem noDown_basic {m : Mat n} (h : Basic m) (i j : Fin n) {t : Nat} (ht : t ≤ 2) : Basic (symSetNoDowngrade m i j t) := by
  unfold symSetNoDowngrade
  split
  · exact symSet_basic h i j ht
  · exact h

theorem noDown_le {m : Mat n} (h : Basic m) (i j : Fin n) (t : Nat) (a b : Fin n) : symSetNoDowngrade m i j t a b ≤ m a b := by
  unfold symSetNoDowngrade
  split
  · rename_i hlt
    unfold symSet
    split
    · rename_i h1
      rcases h1 with ⟨rfl, rfl⟩ | ⟨rfl, rfl⟩
      · exact le_of_lt hlt
      · rw [h.symm]; exact le_of_lt hlt
    · exact le_refl _
  · exact le_refl _

theorem noDown_at (m : Mat n) (i j : Fin n) (t : Nat) : symSetNoDowngrade m i j t i j ≤ t := by
  unfold symSetNoDowngrade
  split
  · simp [symSet]
  · rename_i h; exact Nat.le_of_not_lt h

theorem noDown_sound {cs : List (Cons n)} {m : Mat n} (h : Sound cs m) {i j : Fin n} {t : Nat}
    (h0 : t = 0 → Linked cs true i j) (h1 : t ≤ 1 → Linked cs false i j) : Sound cs (symSetNoDowngrade m i j t) := by
  unfold symSetNoDowngrade
  split
  · constructor
    · intro a b hab
      unfold symSet at hab
      split at hab
      · rename_i hc
        rcases hc with ⟨rfl, rfl⟩ | ⟨rfl, rfl⟩
        · exact h0 hab
        · exact linked_symm (h0 hab)
      · exact h.cst a b hab
    · intro a b hab
      unfold symSet at hab
      split at hab
      · rename_i hc
        rcases hc with ⟨rfl, rfl⟩ | ⟨rfl, rfl⟩
        · exact h1 hab
        · exact linked_symm (h1 hab)
      · exact h.any a b hab
  · exact h

/-- What every step keeps: shape, soundness, and entries only decrease. -/
structure Good (cs : List (Cons n)) (m m' : Mat n) : Prop where
  basic : Basic m'
  sound : Sound cs m'
  le : ∀ a b, m' a b ≤ m a b

theorem Good.trans {cs : List (Cons n)} {m m' m'' : Mat n} (h1 : Good cs m m') (h2 : Good cs m' m'') : Good cs m m'' :=
  ⟨h2.basic, h2.sound, fun a b => le_trans (h2.le a b) (h1.le a b)⟩

theorem Good.refl {cs : List (Cons n)} {m : Mat n} (h : Basic m) (hs : Sound cs m) : Good cs m m :=
  ⟨h, hs, fun _ _ => le_refl _⟩

section steps
variable {cs : List (Cons n)} {i1 i2 : Fin n} {param : Bool}
  (hany : Linked cs false i1 i2) (hcst : param = false → Linked cs true i1 i2)
include hany hcst

theorem step1_good {m : Mat n} (hb : Basic m) (hs : Sound cs m) (i3 : Fin n) : Good cs m (step1 param i1 i2 m i3) := by
  unfold step1
  split
  · exact .refl hb hs
  split
  · exact .refl hb hs
  split
  · rename_i hu
    have hle : m i2 i3 ≤ 1 := by have := hb.le2 i2 i3; omega
    refine ⟨noDown_basic hb _ _ (by split <;> simp), noDown_sound hs ?_ ?_, noDown_le hb _ _ _⟩
    · intro h0
      split at h0
      · rename_i hc
        exact linked_trans (hcst (by simpa using hc.1)) (hs.cst _ _ hc.2)
      · simp at h0
    · intro _
      exact linked_trans hany (hs.any _ _ hle)
  · exact .refl hb hs

theorem step3_good {m : Mat n} (hb : Basic m) (hs : Sound cs m) (i0 i3 : Fin n) (h01 : m i0 i1 ≤ 1) :
    Good cs m (step3 param i1 i2 i0 m i3) := by
  unfold step3
  split
  · exact .refl hb hs
  split
  · exact .refl hb hs
  split
  · exact .refl hb hs
  split
  · exact .refl hb hs
  · rename_i hu
    have hle : m i2 i3 ≤ 1 := by have := hb.le2 i2 i3; omega
    refine ⟨noDown_basic hb _ _ (by split <;> simp), noDown_sound hs ?_ ?_, noDown_le hb _ _ _⟩
    · intro h0
      split at h0
      · rename_i hc
        exact linked_trans (hs.cst _ _ hc.2.1) (linked_trans (hcst (by simpa using hc.1)) (hs.cst _ _ hc.2.2))
      · simp at h0
    · intro _
      exact linked_trans (hs.any _ _ h01) (linked_trans hany (hs.any _ _ hle))

theorem step2a_good {m : Mat n} (hb : Basic m) (hs : Sound cs m) (i0 : Fin n) : Good cs m (step2a param i1 i2 m i0) := by
  unfold step2a
  split
  · rename_i hu
    have hle : m i0 i1 ≤ 1 := by have := hb.le2 i0 i1; omega
    refine ⟨noDown_basic hb _ _ (by split <;> simp), noDown_sound hs ?_ ?_, noDown_le hb _ _ _⟩
    · intro h0
      split at h0
      · rename_i hc
        exact linked_trans (hs.cst _ _ hc.2) (hcst (by simpa using hc.1))
      · simp at h0
    · intro _
      exact linked_trans (hs.any _ _ hle) hany
  · exact .refl hb hs

theorem foldl3_good (i0 : Fin n) (l : List (Fin n)) {m : Mat n} (hb : Basic m) (hs : Sound cs m) (h01 : m i0 i1 ≤ 1) :
    Good cs m (l.foldl (step3 param i1 i2 i0) m) := by
  induction l generalizing m with
  | nil => exact .refl hb hs
  | cons x l ih =>
    have h1 := step3_good hany hcst hb hs i0 x h01
    exact h1.trans (ih h1.basic h1.sound (le_trans (h1.le _ _) h01))

theorem step2_good {m : Mat n} (hb : Basic m) (hs : Sound cs m) (i0 : Fin n) : Good cs m (step2 param i1 i2 m i0) := by
  unfold step2
  split
  · exact .refl hb hs
  split
  · exact .refl hb hs
  · have h1 := step2a_good hany hcst hb hs i0
    dsimp only
    split
    · exact h1
    · rename_i hu
      refine h1.trans (foldl3_good hany hcst i0 _ h1.basic h1.sound ?_)
      have := h1.basic.le2 i0 i1
      omega

theorem foldl_good (f : Mat n → Fin n → Mat n)
    (hf : ∀ m, Basic m → Sound cs m → ∀ i, Good cs m (f m i)) (l : List (Fin n)) {m : Mat n} (hb : Basic m) (hs : Sound cs m) :
    Good cs m (l.foldl f m) := by
  induction l generalizing m with
  | nil => exact .refl hb hs
  | cons x l ih =>
    have h1 := hf m hb hs x
    exact h1.trans (ih h1.basic h1.sound)

/-- A fold reaches an element of the list: the entry written there stays at most what was written. -/
theorem foldl_reach (f : Mat n → Fin n → Mat n)
    (hf : ∀ m, Basic m → Sound cs m → ∀ i, Good cs m (f m i)) (l : List (Fin n)) {m : Mat n} (hb : Basic m) (hs : Sound cs m)
    (x : Fin n) (hx : x ∈ l) (a b : Fin n) (t : Nat)
    (hat : ∀ m', Good cs m m' → f m' x a b ≤ t) : l.foldl f m a b ≤ t := by
  induction l generalizing m with
  | nil => simp at hx
  | cons y l ih =>
    have h1 := hf m hb hs y
    rcases List.mem_cons.1 hx with rfl | hx
    · exact le_trans ((foldl_good hany hcst f hf l h1.basic h1.sound).le a b) (hat m (.refl hb hs))
    · exact ih h1.basic h1.sound hx (fun m' hm' => hat m' (h1.trans hm'))

end steps

/-- Adding a constraint: how the linked pairs change. -/
theorem linked_cons (cs : List (Cons n)) (c : Cons n) (o : Bool) (a b : Fin n) :
    Linked (c :: cs) o a b ↔
      (Linked cs o a b ∨ ((o = true → c.cst = true) ∧
        ((Linked cs o a c.j1 ∧ Linked cs o c.j2 b) ∨ (Linked cs o a c.j2 ∧ Linked cs o c.j1 b)))) := by
  constructor
  · intro h
    unfold Linked at h
    induction h with
    | refl => exact Or.inl .refl
    | @tail y z _ hyz ih =>
      obtain ⟨d, hd, h1, h2⟩ := hyz
      rcases List.mem_cons.1 hd with rfl | hd
      · rcases h2 with ⟨h2, h3⟩ | ⟨h2, h3⟩
        · subst h2 h3
          rcases ih with ih | ⟨_, ⟨ih, _⟩ | ⟨ih, _⟩⟩
          · exact Or.inr ⟨h1, Or.inl ⟨ih, .refl⟩⟩
          · exact Or.inr ⟨h1, Or.inl ⟨ih, .refl⟩⟩
          · exact Or.inl ih
        · subst h2 h3
          rcases ih with ih | ⟨_, ⟨ih, _⟩ | ⟨ih, _⟩⟩
          · exact Or.inr ⟨h1, Or.inr ⟨ih, .refl⟩⟩
          · exact Or.inl ih
          · exact Or.inr ⟨h1, Or.inr ⟨ih, .refl⟩⟩
      · have hj : Linked cs o y z := Relation.ReflTransGen.single ⟨d, hd, h1, h2⟩
        rcases ih with ih | ⟨ih0, ⟨ih, ih'⟩ | ⟨ih, ih'⟩⟩
        · exact Or.inl (linked_trans ih hj)
        · exact Or.inr ⟨ih0, Or.inl ⟨ih, linked_trans ih' hj⟩⟩
        · exact Or.inr ⟨ih0, Or.inr ⟨ih, linked_trans ih' hj⟩⟩
  · have hm : ∀ x ∈ cs, x ∈ c :: cs := fun x hx => by simp [hx]
    rintro (h | ⟨h0, ⟨h, h'⟩ | ⟨h, h'⟩⟩)
    · exact linked_mono hm h
    · exact linked_trans (linked_mono hm h)
        (linked_trans (Relation.ReflTransGen.single ⟨c, by simp, h0, Or.inl ⟨rfl, rfl⟩⟩) (linked_mono hm h'))
    · exact linked_trans (linked_mono hm h)
        (linked_trans (Relation.ReflTransGen.single ⟨c, by simp, h0, Or.inr ⟨rfl, rfl⟩⟩) (linked_mono hm h'))

/-- The matrix is exactly the closure of `cs`. -/
structure Exact (cs : List (Cons n)) (m : Mat n) : Prop where
  basic : Basic m
  cst : ∀ i j, m i j = 0 ↔ Linked cs true i j
  any : ∀ i j, m i j ≤ 1 ↔ Linked cs false i j

theorem Exact.sound {cs : List (Cons n)} {m : Mat n} (h : Exact cs m) : Sound cs m :=
  ⟨fun i j => (h.cst i j).1, fun i j => (h.any i j).1⟩

theorem Sound.mono {cs cs' : List (Cons n)} (hm : ∀ c ∈ cs, c ∈ cs') {m : Mat n} (h : Sound cs m) : Sound cs' m :=
  ⟨fun i j h' => linked_mono hm (h.cst i j h'), fun i j h' => linked_mono hm (h.any i j h')⟩

/-- A level `t` is 0 (constant constraints only) or 1. -/
theorem recurse_complete (cs : List (Cons n)) (c : Cons n) (m : Mat n) (h : Exact cs m)
    (hne : c.j1 ≠ c.j2) (hlt : ¬ m c.j1 c.j2 ≤ (if c.cst then 0 else 1)) :
    Good (c :: cs) m (recurse m c.j1 c.j2 (if c.cst then 0 else 1)) ∧
    ∀ t, t ≤ 1 → (if c.cst then 0 else 1) ≤ t → ∀ a b, m a c.j1 ≤ t → m c.j2 b ≤ t →
      recurse m c.j1 c.j2 (if c.cst then 0 else 1) a b ≤ t := by
  obtain ⟨i1, i2, cst⟩ := c
  dsimp only at *
  set type := (if cst then 0 else 1) with htype
  have hparam : (type == Parameterized) = !cst := by cases cst <;> simp [htype]
  have hm : ∀ x ∈ cs, x ∈ (⟨i1, i2, cst⟩ : Cons n) :: cs := fun x hx => by simp [hx]
  have hany : Linked ((⟨i1, i2, cst⟩ : Cons n) :: cs) false i1 i2 :=
    Relation.ReflTransGen.single ⟨⟨i1, i2, cst⟩, by simp, by simp, Or.inl ⟨rfl, rfl⟩⟩
  have hcst : (!cst) = false → Linked ((⟨i1, i2, cst⟩ : Cons n) :: cs) true i1 i2 := fun h0 =>
    Relation.ReflTransGen.single ⟨⟨i1, i2, cst⟩, by simp, fun _ => by simpa using h0, Or.inl ⟨rfl, rfl⟩⟩
  have hrec : recurse m i1 i2 type = (List.finRange n).foldl (step2 (!cst) i1 i2)
      ((List.finRange n).foldl (step1 (!cst) i1 i2) (symSet m i1 i2 type)) := by
    unfold recurse
    rw [if_neg hlt, hparam]
  -- the three stages
  have hs0 := h.sound.mono hm
  have hlt' : type < m i1 i2 := Nat.lt_of_not_le hlt
  have hset : symSet m i1 i2 type = symSetNoDowngrade m i1 i2 type := by
    unfold symSetNoDowngrade; rw [if_pos hlt']
  have g0 : Good ((⟨i1, i2, cst⟩ : Cons n) :: cs) m (symSet m i1 i2 type) := by
    rw [hset]
    refine ⟨noDown_basic h.basic _ _ ?_, noDown_sound hs0 ?_ (fun _ => hany), noDown_le h.basic _ _ _⟩
    · cases cst <;> simp [htype]
    · intro h0; apply hcst; cases cst <;> simp_all
  set m1 := symSet m i1 i2 type with hm1
  have f1 : ∀ m', Basic m' → Sound ((⟨i1, i2, cst⟩ : Cons n) :: cs) m' → ∀ i, Good ((⟨i1, i2, cst⟩ : Cons n) :: cs) m'
      (step1 (!cst) i1 i2 m' i) := fun m' hb hs i => step1_good hany hcst hb hs i
  have f2 : ∀ m', Basic m' → Sound ((⟨i1, i2, cst⟩ : Cons n) :: cs) m' → ∀ i, Good ((⟨i1, i2, cst⟩ : Cons n) :: cs) m'
      (step2 (!cst) i1 i2 m' i) := fun m' hb hs i => step2_good hany hcst hb hs i
  have g1 := foldl_good hany hcst _ f1 (List.finRange n) g0.basic g0.sound
  set m2 := (List.finRange n).foldl (step1 (!cst) i1 i2) m1 with hm2
  have g2 := foldl_good hany hcst _ f2 (List.finRange n) g1.basic g1.sound
  have gg : Good ((⟨i1, i2, cst⟩ : Cons n) :: cs) m (recurse m i1 i2 type) := by
    rw [hrec]; exact (g0.trans g1).trans g2
  refine ⟨gg, ?_⟩
  intro t ht1 htt a b ha hb
  have hpt : ∀ x : Nat, x ≤ t → ((if !(!cst) ∧ x = 0 then 0 else 1) : Nat) ≤ t := by
    intro x hx
    split
    · exact Nat.zero_le _
    · rename_i hc
      rcases Nat.eq_zero_or_pos t with h0 | h0
      · exfalso; apply hc
        subst h0
        refine ⟨?_, by omega⟩
        cases cst <;> simp_all
      · exact h0
  have hpt2 : ∀ x y : Nat, x ≤ t → y ≤ t → ((if !(!cst) ∧ x = 0 ∧ y = 0 then 0 else 1) : Nat) ≤ t := by
    intro x y hx hy
    split
    · exact Nat.zero_le _
    · rename_i hc
      rcases Nat.eq_zero_or_pos t with h0 | h0
      · exfalso; apply hc
        subst h0
        refine ⟨?_, by omega, by omega⟩
        cases cst <;> simp_all
      · exact h0
  -- already linked before
  have old : ∀ o x y z : Fin n, m x y ≤ t → m y z ≤ t → m x z ≤ t := by
    intro _ x y z hxy hyz
    rcases Nat.eq_zero_or_pos t with h0 | h0
    · subst h0
      exact Nat.le_of_eq ((h.cst x z).2 (linked_trans ((h.cst x y).1 (by omega)) ((h.cst y z).1 (by omega))))
    · have ht : t = 1 := by omega
      subst ht
      exact (h.any x z).2 (linked_trans ((h.any x y).1 hxy) ((h.any y z).1 hyz))
  have diag : ∀ x, m x x ≤ t := fun x => by rw [(h.cst x x).2 .refl]; exact Nat.zero_le _
  by_cases hai2 : a = i2
  · subst hai2; exact le_trans (gg.le _ _) hb
  by_cases hbi1 : b = i1
  · subst hbi1; exact le_trans (gg.le _ _) ha
  by_cases hab : a = b
  · subst hab; exact le_trans (gg.le _ _) (diag _)
  have hm1le : m1 i1 i2 ≤ t := by rw [hm1]; simp [symSet, htt]
  by_cases hai1 : a = i1
  · subst hai1
    by_cases hbi2 : b = i2
    · subst hbi2
      rw [hrec]
      exact le_trans ((g1.trans g2).le _ _) hm1le
    · rw [hrec]
      refine le_trans (g2.le _ _) ?_
      rw [hm2]
      refine foldl_reach hany hcst _ f1 _ g0.basic g0.sound b (List.mem_finRange b) _ _ t ?_
      intro m' hm'
      have hmb : m' i2 b ≤ t := le_trans ((g0.trans hm').le i2 b) hb
      unfold step1
      rw [if_neg hbi1, if_neg hbi2, if_pos (by omega)]
      exact le_trans (noDown_at _ _ _ _) (hpt _ hmb)
  · -- the loop on i0
    rw [hrec]
    refine foldl_reach hany hcst _ f2 _ g1.basic g1.sound a (List.mem_finRange a) _ _ t ?_
    intro m' hm'
    have gm' := (g0.trans g1).trans hm'
    have hma : m' a i1 ≤ t := le_trans (gm'.le a i1) ha
    unfold step2
    rw [if_neg hai2, if_neg hai1]
    have h2a := step2a_good hany hcst gm'.basic gm'.sound a
    have hma2 : step2a (!cst) i1 i2 m' a a i1 ≤ t := le_trans (h2a.le _ _) hma
    have hne2 : ¬ step2a (!cst) i1 i2 m' a a i1 = Unconstrained := by omega
    rw [if_neg hne2]
    by_cases hbi2 : b = i2
    · subst hbi2
      refine le_trans ((foldl3_good hany hcst a _ h2a.basic h2a.sound (by omega)).le _ _) ?_
      unfold step2a
      rw [if_pos (by omega)]
      exact le_trans (noDown_at _ _ _ _) (hpt _ hma)
    · -- inner loop; keep the bound on entry (a, i1)
      have hmb : step2a (!cst) i1 i2 m' a i2 b ≤ t := le_trans ((gm'.trans h2a).le _ _) hb
      have inner : ∀ (l : List (Fin n)) (m0 : Mat n), Basic m0 → Sound ((⟨i1, i2, cst⟩ : Cons n) :: cs) m0 → m0 a i1 ≤ t →
          m0 i2 b ≤ t → b ∈ l → l.foldl (step3 (!cst) i1 i2 a) m0 a b ≤ t := by
        intro l
        induction l with
        | nil => intro m0 _ _ _ _ hbl; simp at hbl
        | cons x l ih =>
          intro m0 hb0 hs0 ha0 hbb hbl
          have g := step3_good hany hcst hb0 hs0 a x (by omega)
          rcases List.mem_cons.1 hbl with rfl | hbl
          · refine le_trans ((foldl3_good hany hcst a l g.basic g.sound (le_trans (g.le _ _) (by omega))).le _ _) ?_
            unfold step3
            rw [if_neg hbi2, if_neg hbi1, if_neg (fun e => hab e.symm), if_neg (by omega)]
            exact le_trans (noDown_at _ _ _ _) (hpt2 _ _ ha0 hbb)
          · exact ih _ g.basic g.sound (le_trans (g.le _ _) ha0) (le_trans (g.le _ _) hbb) hbl
      exact inner _ _ h2a.basic h2a.sound hma2 hmb (List.mem_finRange b)

theorem record_exact (cs : List (Cons n)) (c : Cons n) (m : Mat n) (h : Exact cs m) :
    Exact (c :: cs) (record m c) ∧ ∀ a b, record m c a b ≤ m a b := by
  -- a constraint between two joints already linked changes nothing
  have same : (∀ o, (o = true → c.cst = true) → Linked cs o c.j1 c.j2) → Exact (c :: cs) m := by
    intro hl
    have hiff : ∀ o a b, Linked (c :: cs) o a b ↔ Linked cs o a b := by
      intro o a b
      rw [linked_cons]
      constructor
      · rintro (h | ⟨h0, ⟨h1, h2⟩ | ⟨h1, h2⟩⟩)
        · exact h
        · exact linked_trans h1 (linked_trans (hl o h0) h2)
        · exact linked_trans h1 (linked_trans (linked_symm (hl o h0)) h2)
      · exact Or.inl
    exact ⟨h.basic, fun i j => by rw [hiff]; exact h.cst i j, fun i j => by rw [hiff]; exact h.any i j⟩
  unfold record
  split
  · rename_i he
    exact ⟨same (fun o _ => by rw [he]; exact .refl), fun _ _ => le_refl _⟩
  · rename_i hne
    by_cases hle : m c.j1 c.j2 ≤ (if c.cst then 0 else 1)
    · have hr : recurse m c.j1 c.j2 (if c.cst then 0 else 1) = m := by
        unfold recurse; rw [if_pos hle]
      rw [show (if c.cst then Constrained else Parameterized) = (if c.cst then 0 else 1) from rfl, hr]
      refine ⟨same ?_, fun _ _ => le_refl _⟩
      intro o ho
      cases hc : c.cst with
      | true =>
        rw [hc] at hle
        have h0 := (h.cst c.j1 c.j2).1 (by simpa using hle)
        cases o with
        | true => exact h0
        | false => exact linked_weaken h0
      | false =>
        cases o with
        | true => exact absurd (ho rfl) (by simp [hc])
        | false =>
          rw [hc] at hle
          exact (h.any c.j1 c.j2).1 (by simpa using hle)
    · obtain ⟨g, hcomp⟩ := recurse_complete cs c m h hne hle
      rw [show (if c.cst then Constrained else Parameterized) = (if c.cst then 0 else 1) from rfl]
      set m' := recurse m c.j1 c.j2 (if c.cst then 0 else 1) with hm'
      refine ⟨⟨g.basic, fun i j => ⟨fun h0 => g.sound.cst i j h0, ?_⟩, fun i j => ⟨fun h0 => g.sound.any i j h0, ?_⟩⟩, g.le⟩
      · intro hl
        rcases (linked_cons cs c true i j).1 hl with hl | ⟨h0, ⟨h1, h2⟩ | ⟨h1, h2⟩⟩
        · have := g.le i j; rw [(h.cst i j).2 hl] at this; omega
        · have := hcomp 0 (by omega) (by simp [h0 rfl]) i j (Nat.le_of_eq ((h.cst _ _).2 h1)) (Nat.le_of_eq ((h.cst _ _).2 h2))
          omega
        · have := hcomp 0 (by omega) (by simp [h0 rfl]) j i (Nat.le_of_eq ((h.cst _ _).2 (linked_symm h2)))
            (Nat.le_of_eq ((h.cst _ _).2 (linked_symm h1)))
          rw [g.basic.symm]; omega
      · intro hl
        rcases (linked_cons cs c false i j).1 hl with hl | ⟨h0, ⟨h1, h2⟩ | ⟨h1, h2⟩⟩
        · exact le_trans (g.le i j) ((h.any i j).2 hl)
        · exact hcomp 1 (by omega) (by split <;> simp) i j ((h.any _ _).2 h1) ((h.any _ _).2 h2)
        · rw [g.basic.symm]
          exact hcomp 1 (by omega) (by split <;> simp) j i ((h.any _ _).2 (linked_symm h2)) ((h.any _ _).2 (linked_symm h1))

theorem init_exact : Exact ([] : List (Cons n)) (initMatrix : Mat n) := by
  have hl : ∀ o (i j : Fin n), Linked [] o i j ↔ i = j := by
    intro o i j
    constructor
    · intro h
      unfold Linked at h
      induction h with
      | refl => rfl
      | tail _ hyz _ => obtain ⟨c, hc, _⟩ := hyz; simp at hc
    · rintro rfl; exact .refl
  refine ⟨⟨?_, ?_⟩, ?_, ?_⟩
  · intro i j
    unfold initMatrix
    by_cases h : i = j
    · simp [h]
    · rw [if_neg h, if_neg (fun e => h e.symm)]
  · intro i j; unfold initMatrix; split <;> simp
  · intro i j; rw [hl]; unfold initMatrix; split <;> simp_all
  · intro i j; rw [hl]; unfold initMatrix; split <;> simp_all

theorem linked_congr {cs cs' : List (Cons n)} (h : ∀ c, c ∈ cs ↔ c ∈ cs') (o : Bool) (a b : Fin n) :
    Linked cs o a b ↔ Linked cs' o a b :=
  ⟨linked_mono (fun c hc => (h c).1 hc), linked_mono (fun c hc => (h c).2 hc)⟩

theorem fromConstraint_exact (cs0 cs : List (Cons n)) (m : Mat n) (h : Exact cs0 m) :
    Exact (cs0 ++ cs) (fromConstraint m cs) ∧ ∀ a b, fromConstraint m cs a b ≤ m a b := by
  unfold fromConstraint
  induction cs generalizing cs0 m with
  | nil => simpa using h
  | cons c cs ih =>
    obtain ⟨k1, k2⟩ := record_exact cs0 c m h
    obtain ⟨m1, m2⟩ := ih (c :: cs0) _ k1
    refine ⟨?_, fun a b => le_trans (m2 a b) (k2 a b)⟩
    have hp : ∀ d, d ∈ (c :: cs0) ++ cs ↔ d ∈ cs0 ++ c :: cs := by intro d; simp; tauto
    exact ⟨m1.basic, fun i j => by rw [← linked_congr hp]; exact m1.cst i j, fun i j => by rw [← linked_congr hp]; exact m1.any i j⟩

/-! ## C44 -/

/-- C44: starting from `RelativeMotion::matrix`, after recording any sequence of constraints (in one or several calls of
`fromConstraint`) the matrix is symmetric with `Constrained` diagonal, an entry is `Constrained` iff the two joints are linked through
constraints with constant right hand side only, and it is not `Unconstrained` iff they are linked by constraints of any kind. -/
theorem C44_closure (calls : List (List (Cons n))) (i j : Fin n) :
    (calls.foldl fromConstraint initMatrix) i j = (calls.foldl fromConstraint initMatrix) j i ∧
    (calls.foldl fromConstraint initMatrix) i i = Constrained ∧
    ((calls.foldl fromConstraint initMatrix) i j = Constrained ↔ Linked calls.flatten true i j) ∧
    ((calls.foldl fromConstraint initMatrix) i j ≠ Unconstrained ↔ Linked calls.flatten false i j) := by
  have key : ∀ (calls : List (List (Cons n))) (cs0 : List (Cons n)) (m : Mat n), Exact cs0 m →
      Exact (cs0 ++ calls.flatten) (calls.foldl fromConstraint m) := by
    intro calls
    induction calls with
    | nil => intro cs0 m h; simpa using h
    | cons cs calls ih =>
      intro cs0 m h
      have := ih (cs0 ++ cs) _ (fromConstraint_exact cs0 cs m h).1
      simpa using this
  have h := key calls [] initMatrix init_exact
  rw [List.nil_append] at h
  refine ⟨h.basic.symm i j, (h.cst i i).2 .refl, h.cst i j, ?_⟩
  rw [← h.any i j]
  have := h.basic.le2 i j
  omega

/-- C44 (monotone): recording further constraints never weakens an entry. -/
theorem C44_monotone (calls : List (List (Cons n))) (cs : List (Cons n)) (i j : Fin n) :
    fromConstraint (calls.foldl fromConstraint initMatrix) cs i j ≤ (calls.foldl fromConstraint initMatrix) i j := by
  have key : ∀ (calls : List (List (Cons n))) (cs0 : List (Cons n)) (m : Mat n), Exact cs0 m →
      ∃ cs1, Exact cs1 (calls.foldl fromConstraint m) := by
    intro calls
    induction calls with
    | nil => intro cs0 m h; exact ⟨cs0, h⟩
    | cons cs calls ih => intro cs0 m h; exact ih _ _ (fromConstraint_exact cs0 cs m h).1
  obtain ⟨cs1, h1⟩ := key calls [] initMatrix init_exact
  exact (fromConstraint_exact cs1 cs _ h1).2 i j

/-- Joints 0-1 constant, 1-2 with a parameter, 3-4 constant, then 4-0 constant: 1 and 3 become `Constrained`, 2 and 3
`Parameterized`, 5 stays `Unconstrained`. -/
example : let m := fromConstraint (initMatrix : Mat 6) [⟨0, 1, true⟩, ⟨1, 2, false⟩, ⟨3, 4, true⟩, ⟨4, 0, true⟩]
    m 1 3 = 0 ∧ m 2 3 = 1 ∧ m 3 5 = 2 := by decide +kernel

end Verif.RelMotion
