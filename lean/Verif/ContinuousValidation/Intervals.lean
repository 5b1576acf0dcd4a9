import Mathlib.Order.Defs.LinearOrder
import Mathlib.Order.Basic
import Mathlib.Data.Rat.Defs
import Mathlib.Algebra.Order.Ring.Rat
import Mathlib.Algebra.Order.Field.Basic
import Mathlib.Tactic.Common

/-!
# Unions of intervals (`continuousValidation::Intervals`), C27, C28
-/
namespace Verif.Intervals
variable {K : Type} [LinearOrder K]

/-- `cas == 1`: src/continuous-validation/intervals.hh:68-90.  `a < it->first`; the list starts at `it`.  Erased elements
(`toErase`, 127-131) are dropped at once, no later element of the loop reads them. -/
def cas1 (a b : K) : List (K × K) → List (K × K)
  | [] => [(a, b)]
  | i :: l => if b < i.1 then (a, b) :: i :: l else if b < i.2 then (a, i.2) :: l else cas1 a b l

/-- Iterations of `cas == 2` after the first one (`it1 != it`): intervals.hh:94-123.  `e` is the current `it->second`.  Returns
the final `it->second` and the elements kept after `it`.  There is no `break` in the first branch. -/
def cas2Loop (b : K) (e : K) : List (K × K) → K × List (K × K)
  | [] => (e, [])
  | i :: l =>
    if b < i.1 then ((cas2Loop b b l).1, i :: (cas2Loop b b l).2)
    else if b < i.2 then (i.2, l)
    else if l.isEmpty then (b, [])
    else cas2Loop b e l

/-- `cas == 2`: intervals.hh:91-123, first iteration (`it1 == it`, so nothing is erased) then the others. -/
def cas2 (b : K) (it : K × K) (l : List (K × K)) : List (K × K) :=
  if b < it.1 then (it.1, (cas2Loop b b l).1) :: (cas2Loop b b l).2
  else if b < it.2 then (it.1, it.2) :: l
  else if l.isEmpty then [(it.1, b)]
  else (it.1, (cas2Loop b it.2 l).1) :: (cas2Loop b it.2 l).2

/-- `Intervals::unionInterval`: intervals.hh:53-132. -/
def unionInterval (a b : K) : List (K × K) → List (K × K)
  | [] => [(a, b)]
  | i :: l =>
    if a < i.1 then cas1 a b (i :: l)
    else if a ≤ i.2 then cas2 b i l
    else i :: unionInterval a b l

/-- `Intervals::contains (interval)`: intervals.hh:134-142. -/
def containsInterval (a b : K) : List (K × K) → Bool
  | [] => false
  | i :: l => if i.1 ≤ a ∧ b ≤ i.2 then true else containsInterval a b l

/-- Forward loop of `contains (value)`. -/
def containsLoop (t : K) : List (K × K) → Bool
  | [] => false
  | i :: l => if i.1 ≤ t ∧ t ≤ i.2 then true else containsLoop t l

/-- `Intervals::contains (value, reverse)`: intervals.hh:144-162 (the list is scanned forward iff `reverse`). -/
def containsValue (t : K) (reverse : Bool) (l : List (K × K)) : Bool :=
  if reverse then containsLoop t l else containsLoop t l.reverse

/-! ## Specification -/

/-- `t` is in the union of the closed intervals of the list. -/
def Covers (l : List (K × K)) (t : K) : Prop := ∃ i ∈ l, i.1 ≤ t ∧ t ≤ i.2

/-- Non-empty intervals, sorted and strictly separated. -/
structure Separated (l : List (K × K)) : Prop where
  nonempty : ∀ i ∈ l, i.1 ≤ i.2
  sorted : l.Pairwise (fun i j => i.2 < j.1)

/-- Successive calls of `unionInterval` on an empty object. -/
def build (ivs : List (K × K)) : List (K × K) := ivs.foldl (fun l i => unionInterval i.1 i.2 l) []

/-! ## Lemmas -/

theorem Separated.tail {i : K × K} {l : List (K × K)} (h : Separated (i :: l)) : Separated l :=
  ⟨fun j hj => h.nonempty j (by simp [hj]), (List.pairwise_cons.1 h.sorted).2⟩

theorem separated_cons {i : K × K} {l : List (K × K)} (h1 : i.1 ≤ i.2) (h2 : ∀ j ∈ l, i.2 < j.1) (h : Separated l) :
    Separated (i :: l) :=
  ⟨by intro j hj; rcases List.mem_cons.1 hj with rfl | hj; exacts [h1, h.nonempty j hj],
   List.pairwise_cons.2 ⟨h2, h.sorted⟩⟩

theorem Separated.head_lt {i : K × K} {l : List (K × K)} (h : Separated (i :: l)) : ∀ j ∈ l, i.2 < j.1 :=
  (List.pairwise_cons.1 h.sorted).1

@[simp] theorem covers_cons (i : K × K) (l : List (K × K)) (t : K) :
    Covers (i :: l) t ↔ (i.1 ≤ t ∧ t ≤ i.2) ∨ Covers l t := by simp [Covers]

@[simp] theorem covers_nil (t : K) : ¬ Covers ([] : List (K × K)) t := by simp [Covers]

theorem cas1_spec (a b : K) (hab : a ≤ b) (l : List (K × K)) (hs : Separated l) (ha : ∀ i ∈ l, a < i.1) :
    Separated (cas1 a b l) ∧ (∀ i ∈ cas1 a b l, a ≤ i.1) ∧ ∀ t, Covers (cas1 a b l) t ↔ (a ≤ t ∧ t ≤ b) ∨ Covers l t := by
  induction l with
  | nil => exact ⟨separated_cons hab (by simp) ⟨by simp, by simp⟩, by simp [cas1], by simp [cas1]⟩
  | cons i l ih =>
    have hi := hs.nonempty i (by simp)
    have hai := ha i (by simp)
    unfold cas1
    split
    · rename_i hlt
      refine ⟨separated_cons hab ?_ hs, ?_, by simp⟩
      · intro j hj
        rcases List.mem_cons.1 hj with rfl | hj
        · exact hlt
        · exact lt_of_lt_of_le hlt (le_of_lt (lt_of_le_of_lt hi (hs.head_lt j hj)))
      · intro j hj
        rcases List.mem_cons.1 hj with rfl | hj
        · exact le_refl _
        · exact le_of_lt (ha j hj)
    · rename_i h1
      split
      · rename_i h2
        refine ⟨separated_cons (le_of_lt (lt_of_lt_of_le hai hi)) hs.head_lt hs.tail, ?_, ?_⟩
        · intro j hj
          rcases List.mem_cons.1 hj with rfl | hj
          · exact le_refl _
          · exact le_of_lt (ha j (by simp [hj]))
        · intro t
          simp only [covers_cons]
          have h1' := not_lt.1 h1
          constructor
          · rintro (⟨h, h'⟩ | h)
            · rcases le_total t b with h3 | h3
              · exact Or.inl ⟨h, h3⟩
              · exact Or.inr (Or.inl ⟨le_trans h1' h3, h'⟩)
            · exact Or.inr (Or.inr h)
          · rintro (⟨h, h'⟩ | ⟨h, h'⟩ | h)
            · exact Or.inl ⟨h, le_trans h' (le_of_lt h2)⟩
            · exact Or.inl ⟨le_trans (le_of_lt hai) h, h'⟩
            · exact Or.inr h
      · rename_i h2
        obtain ⟨k1, k2, k3⟩ := ih hs.tail (fun j hj => ha j (by simp [hj]))
        refine ⟨k1, k2, fun t => ?_⟩
        rw [k3]
        simp only [covers_cons]
        have h2' := not_lt.1 h2
        constructor
        · rintro (h | h)
          · exact Or.inl h
          · exact Or.inr (Or.inr h)
        · rintro (h | ⟨h, h'⟩ | h)
          · exact Or.inl h
          · exact Or.inl ⟨le_trans (le_of_lt hai) h, le_trans h' h2'⟩
          · exact Or.inr h

theorem cas2Loop_beyond (b e : K) (l : List (K × K)) (h : ∀ i ∈ l, b < i.1) :
    cas2Loop b b l = (b, l) ∧ (l ≠ [] → cas2Loop b e l = (b, l)) := by
  induction l generalizing e with
  | nil => simp [cas2Loop]
  | cons i l ih =>
    have h1 := (ih b (fun j hj => h j (by simp [hj]))).1
    have h2 := h i (by simp)
    simp [cas2Loop, h1, h2]

/-- The loop of case 2 on the elements after `it`, when `b` is at least the end of `it`. -/
theorem cas2Loop_spec (b e : K) (l : List (K × K)) (hne : l ≠ []) (hs : Separated l) :
    Separated ((cas2Loop b e l).2) ∧ b ≤ (cas2Loop b e l).1 ∧
    (∀ j ∈ (cas2Loop b e l).2, (cas2Loop b e l).1 < j.1) ∧
    (∀ c, c ≤ b → (∀ i ∈ l, c < i.1) → ∀ t, ((c ≤ t ∧ t ≤ (cas2Loop b e l).1) ∨ Covers (cas2Loop b e l).2 t) ↔
      ((c ≤ t ∧ t ≤ b) ∨ Covers l t)) := by
  induction l with
  | nil => exact absurd rfl hne
  | cons i l ih =>
    have hi := hs.nonempty i (by simp)
    by_cases h1 : b < i.1
    · have hall : ∀ j ∈ i :: l, b < j.1 := by
        intro j hj
        rcases List.mem_cons.1 hj with rfl | hj
        · exact h1
        · exact lt_trans h1 (lt_of_le_of_lt hi (hs.head_lt j hj))
      rw [(cas2Loop_beyond b e (i :: l) hall).2 (by simp)]
      exact ⟨hs, le_refl _, hall, fun c hc _ t => Iff.rfl⟩
    · have h1' := not_lt.1 h1
      by_cases h2 : b < i.2
      · have he : cas2Loop b e (i :: l) = (i.2, l) := by
          unfold cas2Loop; rw [if_neg h1, if_pos h2]
        rw [he]
        refine ⟨hs.tail, le_of_lt h2, hs.head_lt, fun c hc hcl t => ?_⟩
        have hci := hcl i (by simp)
        simp only [covers_cons]
        constructor
        · rintro (⟨h, h'⟩ | h)
          · rcases le_total t b with h3 | h3
            · exact Or.inl ⟨h, h3⟩
            · exact Or.inr (Or.inl ⟨le_trans h1' h3, h'⟩)
          · exact Or.inr (Or.inr h)
        · rintro (⟨h, h'⟩ | ⟨h, h'⟩ | h)
          · exact Or.inl ⟨h, le_trans h' (le_of_lt h2)⟩
          · exact Or.inl ⟨le_trans (le_of_lt hci) h, h'⟩
          · exact Or.inr h
      · have h2' := not_lt.1 h2
        have absorb : ∀ c t, c ≤ b → c < i.1 →
            (((c ≤ t ∧ t ≤ b) ∨ Covers l t) ↔ ((c ≤ t ∧ t ≤ b) ∨ Covers (i :: l) t)) := by
          intro c t hc hci
          simp only [covers_cons]
          constructor
          · rintro (h | h)
            · exact Or.inl h
            · exact Or.inr (Or.inr h)
          · rintro (h | ⟨h, h'⟩ | h)
            · exact Or.inl h
            · exact Or.inl ⟨le_trans (le_of_lt hci) h, le_trans h' h2'⟩
            · exact Or.inr h
        cases l with
        | nil =>
          have he : cas2Loop b e [i] = (b, []) := by
            unfold cas2Loop; rw [if_neg h1, if_neg h2]; simp
          rw [he]
          refine ⟨⟨by simp, by simp⟩, le_refl _, by simp, fun c hc hcl t => ?_⟩
          exact absorb c t hc (hcl i (by simp))
        | cons j l =>
          have he : cas2Loop b e (i :: j :: l) = cas2Loop b e (j :: l) := by
            conv_lhs => unfold cas2Loop
            rw [if_neg h1, if_neg h2]; simp
          rw [he]
          obtain ⟨k1, k2, k3, k4⟩ := ih (by simp) hs.tail
          refine ⟨k1, k2, k3, fun c hc hcl t => ?_⟩
          rw [k4 c hc (fun x hx => hcl x (by simp [hx])) t]
          exact absorb c t hc (hcl i (by simp))

theorem cas2_spec (a b : K) (hab : a ≤ b) (it : K × K) (l : List (K × K)) (hs : Separated (it :: l))
    (h1 : it.1 ≤ a) (h2 : a ≤ it.2) :
    Separated (cas2 b it l) ∧ (∀ i ∈ cas2 b it l, it.1 ≤ i.1) ∧
    ∀ t, Covers (cas2 b it l) t ↔ (a ≤ t ∧ t ≤ b) ∨ Covers (it :: l) t := by
  have hb : ¬ b < it.1 := not_lt.2 (le_trans h1 hab)
  have hit : it.1 ≤ it.2 := le_trans h1 h2
  have hge : ∀ j ∈ l, it.1 ≤ j.1 := fun j hj => le_of_lt (lt_of_le_of_lt hit (hs.head_lt j hj))
  unfold cas2
  rw [if_neg hb]
  split
  · rename_i h3
    refine ⟨hs, ?_, ?_⟩
    · intro j hj
      rcases List.mem_cons.1 hj with rfl | hj
      · exact le_refl _
      · exact hge j hj
    · intro t
      simp only [covers_cons]
      constructor
      · exact fun h => Or.inr h
      · rintro (⟨h, h'⟩ | h)
        · exact Or.inl ⟨le_trans h1 h, le_trans h' (le_of_lt h3)⟩
        · exact h
  · rename_i h3
    have h3' := not_lt.1 h3
    have absorb : ∀ t, ((it.1 ≤ t ∧ t ≤ b) ∨ Covers l t) ↔ ((a ≤ t ∧ t ≤ b) ∨ Covers (it :: l) t) := by
      intro t
      simp only [covers_cons]
      constructor
      · rintro (⟨h, h'⟩ | h)
        · rcases le_total t it.2 with h4 | h4
          · exact Or.inr (Or.inl ⟨h, h4⟩)
          · exact Or.inl ⟨le_trans h2 h4, h'⟩
        · exact Or.inr (Or.inr h)
      · rintro (⟨h, h'⟩ | ⟨h, h'⟩ | h)
        · exact Or.inl ⟨le_trans h1 h, h'⟩
        · exact Or.inl ⟨h, le_trans h' h3'⟩
        · exact Or.inr h
    cases l with
    | nil =>
      simp only [List.isEmpty_nil, if_true]
      refine ⟨separated_cons (le_trans h1 hab) (by simp) hs.tail, by simp, fun t => ?_⟩
      simpa using absorb t
    | cons j l =>
      simp only [List.isEmpty_cons, Bool.false_eq_true, if_false]
      obtain ⟨k1, k2, k3, k4⟩ := cas2Loop_spec b it.2 (j :: l) (by simp) hs.tail
      refine ⟨separated_cons (le_trans (le_trans h1 hab) k2) k3 k1, ?_, ?_⟩
      · intro x hx
        rcases List.mem_cons.1 hx with rfl | hx
        · exact le_refl _
        · exact le_of_lt (lt_of_le_of_lt (le_trans (le_trans h1 hab) k2) (k3 x hx))
      · intro t
        rw [covers_cons, k4 it.1 (le_trans h1 hab) (fun x hx => lt_of_le_of_lt hit (hs.head_lt x hx)) t]
        exact absorb t

theorem unionInterval_spec (a b : K) (hab : a ≤ b) (l : List (K × K)) (hs : Separated l) :
    Separated (unionInterval a b l) ∧ (∀ c, c < a → (∀ i ∈ l, c < i.1) → ∀ i ∈ unionInterval a b l, c < i.1) ∧
    ∀ t, Covers (unionInterval a b l) t ↔ (a ≤ t ∧ t ≤ b) ∨ Covers l t := by
  induction l with
  | nil => exact ⟨separated_cons hab (by simp) hs, by simp [unionInterval], by simp [unionInterval]⟩
  | cons i l ih =>
    unfold unionInterval
    have hi := hs.nonempty i (by simp)
    split
    · rename_i h1
      obtain ⟨k1, k2, k3⟩ := cas1_spec a b hab (i :: l) hs (by
        intro j hj
        rcases List.mem_cons.1 hj with rfl | hj
        · exact h1
        · exact lt_trans h1 (lt_of_le_of_lt hi (hs.head_lt j hj)))
      exact ⟨k1, fun c hc _ x hx => lt_of_lt_of_le hc (k2 x hx), k3⟩
    · rename_i h1
      split
      · rename_i h2
        obtain ⟨k1, k2, k3⟩ := cas2_spec a b hab i l hs (not_lt.1 h1) h2
        exact ⟨k1, fun c _ hcl x hx => lt_of_lt_of_le (hcl i (by simp)) (k2 x hx), k3⟩
      · rename_i h2
        obtain ⟨k1, k2, k3⟩ := ih hs.tail
        refine ⟨separated_cons hi (k2 i.2 (not_le.1 h2) hs.head_lt) k1, ?_, ?_⟩
        · intro c hc hcl x hx
          rcases List.mem_cons.1 hx with rfl | hx
          · exact hcl _ (by simp)
          · exact k2 c hc (fun y hy => hcl y (by simp [hy])) x hx
        · intro t
          rw [covers_cons, k3, covers_cons]
          tauto

/-! ## C27 -/

/-- C27: after any sequence of unions with intervals `[a, b]`, `a ≤ b`, starting from the empty set, the stored list is sorted,
made of non-empty strictly separated intervals, and covers exactly the union of the intervals given. -/
theorem C27_union (ivs : List (K × K)) (h : ∀ i ∈ ivs, i.1 ≤ i.2) :
    Separated (build ivs) ∧ ∀ t, Covers (build ivs) t ↔ ∃ i ∈ ivs, i.1 ≤ t ∧ t ≤ i.2 := by
  have key : ∀ (ivs : List (K × K)) (l : List (K × K)), (∀ i ∈ ivs, i.1 ≤ i.2) → Separated l →
      Separated (ivs.foldl (fun l i => unionInterval i.1 i.2 l) l) ∧
      ∀ t, Covers (ivs.foldl (fun l i => unionInterval i.1 i.2 l) l) t ↔ (Covers l t ∨ ∃ i ∈ ivs, i.1 ≤ t ∧ t ≤ i.2) := by
    intro ivs
    induction ivs with
    | nil => intro l _ hl; exact ⟨hl, fun t => by simp⟩
    | cons i ivs ih =>
      intro l hi hl
      obtain ⟨k1, _, k3⟩ := unionInterval_spec i.1 i.2 (hi i (by simp)) l hl
      obtain ⟨m1, m2⟩ := ih _ (fun j hj => hi j (by simp [hj])) k1
      refine ⟨m1, fun t => ?_⟩
      rw [List.foldl_cons, m2, k3]
      simp only [List.mem_cons, exists_eq_or_imp]
      tauto
  obtain ⟨k1, k2⟩ := key ivs [] h ⟨by simp, by simp⟩
  exact ⟨k1, fun t => by rw [build, k2]; simp⟩

example : build [(0, 1), (5, 6), (2, 3), (3, 5), ((-1 : ℚ), 1/2), (8, 9), (7, 7)] = [(-1, 1), (2, 6), (7, 7), (8, 9)] := by
  decide +kernel

/-! ## C28 -/

theorem containsLoop_iff (t : K) (l : List (K × K)) : containsLoop t l = true ↔ Covers l t := by
  induction l with
  | nil => simp [containsLoop]
  | cons i l ih =>
    unfold containsLoop
    rw [covers_cons]
    split
    · rename_i h; simp [h]
    · rename_i h; rw [ih]; tauto

theorem containsInterval_iff (a b : K) (l : List (K × K)) :
    containsInterval a b l = true ↔ ∃ i ∈ l, i.1 ≤ a ∧ b ≤ i.2 := by
  induction l with
  | nil => simp [containsInterval]
  | cons i l ih =>
    unfold containsInterval
    simp only [List.mem_cons, exists_eq_or_imp]
    split
    · rename_i h; simp [h]
    · rename_i h; rw [ih]; tauto

/-- C28 (value): `contains(t)` on the object obtained by any sequence of unions, in any scan direction, is true iff `t` is in one of
the intervals given. -/
theorem C28_value (ivs : List (K × K)) (h : ∀ i ∈ ivs, i.1 ≤ i.2) (t : K) (reverse : Bool) :
    containsValue t reverse (build ivs) = true ↔ ∃ i ∈ ivs, i.1 ≤ t ∧ t ≤ i.2 := by
  rw [← (C27_union ivs h).2 t]
  unfold containsValue
  cases reverse with
  | true => simp [containsLoop_iff]
  | false => simp [containsLoop_iff, Covers]

/-- C28 (interval): `contains([a, b])`, `a ≤ b`, is true iff every parameter of `[a, b]` is in one of the intervals given. -/
theorem C28_interval [DenselyOrdered K] (ivs : List (K × K)) (h : ∀ i ∈ ivs, i.1 ≤ i.2) (a b : K) (hab : a ≤ b) :
    containsInterval a b (build ivs) = true ↔ ∀ t, a ≤ t → t ≤ b → ∃ i ∈ ivs, i.1 ≤ t ∧ t ≤ i.2 := by
  obtain ⟨hs, hc⟩ := C27_union ivs h
  rw [containsInterval_iff]
  constructor
  · rintro ⟨i, hi, h1, h2⟩ t hat htb
    exact (hc t).1 ⟨i, hi, le_trans h1 hat, le_trans htb h2⟩
  · intro hall
    have hcov : ∀ t, a ≤ t → t ≤ b → Covers (build ivs) t := fun t h1 h2 => (hc t).2 (hall t h1 h2)
    generalize build ivs = l at hs hcov
    clear hall hc
    induction l with
    | nil => exact absurd (hcov a (le_refl _) hab) (covers_nil a)
    | cons i l ih =>
      by_cases hia : i.2 < a
      · obtain ⟨j, hj, h1, h2⟩ := ih hs.tail (fun t h1 h2 => by
          rcases (covers_cons i l t).1 (hcov t h1 h2) with h3 | h3
          · exact absurd (lt_of_lt_of_le hia h1) (not_lt.2 h3.2)
          · exact h3)
        exact ⟨j, by simp [hj], h1, h2⟩
      · have hia' := not_lt.1 hia
        -- the first interval holds a
        have h1a : i.1 ≤ a := by
          rcases (covers_cons i l a).1 (hcov a (le_refl _) hab) with h3 | ⟨j, hj, h3, _⟩
          · exact h3.1
          · exact absurd (lt_of_le_of_lt hia' (hs.head_lt j hj)) (not_lt.2 h3)
        refine ⟨i, by simp, h1a, ?_⟩
        by_contra hb
        have hb' := not_le.1 hb
        -- the parameters just after the end of `i` are not covered
        cases l with
        | nil =>
          rcases (covers_cons i [] b).1 (hcov b hab (le_refl _)) with h3 | h3
          · exact hb h3.2
          · exact covers_nil b h3
        | cons j l =>
          have hij := hs.head_lt j (by simp)
          obtain ⟨t, ht1, ht2⟩ := exists_between (lt_min hb' hij)
          have ht2' := lt_min_iff.1 ht2
          rcases (covers_cons i (j :: l) t).1 (hcov t (le_trans hia' (le_of_lt ht1)) (le_of_lt ht2'.1)) with h3 | ⟨k, hk, h3, _⟩
          · exact absurd ht1 (not_lt.2 h3.2)
          · rcases List.mem_cons.1 hk with rfl | hk
            · exact absurd ht2'.2 (not_lt.2 h3)
            · have := hs.tail.head_lt k hk
              have hj2 := hs.nonempty j (by simp)
              exact absurd (lt_of_lt_of_le ht2'.2 (le_trans hj2 (le_trans (le_of_lt this) h3))) (lt_irrefl _)

example : containsInterval (2 : ℚ) 5 (build [(0, 1), (4, 6), (2, 4)]) = true := by decide +kernel
example : containsInterval (1/2 : ℚ) 5 (build [(0, 1), (4, 6), (2, 4)]) = false := by decide +kernel

end Verif.Intervals
