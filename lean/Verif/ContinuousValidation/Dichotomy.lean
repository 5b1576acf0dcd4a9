import Verif.ContinuousValidation.Straight
import Mathlib.Data.Finset.Max
import Mathlib.Algebra.Order.Group.Abs
set_option linter.unusedSectionVars false

/-!
# Continuous validation by dichotomy (C32)

The set of parameters already certified is the object `Intervals` modelled in `Intervals.lean`.
-/
namespace Verif.CV
open Verif.PathV (Ops Err)
open Verif.Intervals
variable {K S C P : Type} [Field K] [LinearOrder K] [IsStrictOrderedRing K]

/-- The list of intervals seen from the starting end: `begin (list, reverse)` and `Nth (list, N, reverse)` of
src/continuous-validation/helper.hh:42-60 are its elements of ranks 0 and `N`. -/
def ordered (rev : Bool) (l : List (K × K)) : List (K × K) := if rev then l.reverse else l

/-- Outcome: the Boolean, `validSubset`, parameter of the report and number of evaluations. -/
structure DichoRes (K : Type) where
  valid : Bool
  list : List (K × K)
  fail : Option K
  tests : Nat

/-- Next parameter: src/continuous-validation/dichotomy.cc:101-107. -/
def nextParam (rev : Bool) (tr : K × K) (l : List (K × K)) : Except Err K :=
  match ordered rev l with
  | [] => .error .indexOutOfBounds
  | i :: rest =>
    let t0 := isecond rev i
    let t1 := match rest with
      | [] => isecond rev tr
      | j :: _ => ifirst rev j
    .ok (1 / 2 * (t0 + t1))

/-- Loop of `Dichotomy::validateStraightPath`: dichotomy.cc:84-108. -/
def dichoLoop (query : S → K → Option ((K × K) × S)) (rev : Bool) (tr : K × K) :
    Nat → S → K → List (K × K) → Nat → Except Err (DichoRes K)
  | 0, _, _, _, _ => .error .outOfFuel
  | fuel + 1, s, t, l, n =>
    match query s t with
    | none => .ok ⟨false, l, some t, n + 1⟩
    | some (I, s') =>
      if containsInterval tr.1 tr.2 (unionInterval I.1 I.2 l) then .ok ⟨true, unionInterval I.1 I.2 l, none, n + 1⟩
      else do
        let t' ← nextParam rev tr (unionInterval I.1 I.2 l)
        dichoLoop query rev tr fuel s' t' (unionInterval I.1 I.2 l) (n + 1)

/-- `Dichotomy::validateStraightPath<reverse>`: dichotomy.cc:68-131. -/
def dichotomy (O : Ops K C P) (query : S → K → Option ((K × K) × S)) (s : S) (rev : Bool) (fuel : Nat) (p : P) :
    Except Err (Bool × P × Option K × Nat) := do
  let tr := (O.lo p, O.hi p)
  let t := ifirst rev tr
  let r ← dichoLoop query rev tr fuel s t (unionInterval t t []) 0
  if r.valid then .ok (true, p, r.fail, r.tests)
  else
    match ordered rev r.list with
    | [] => .error .indexOutOfBounds
    | i :: _ => do
      let part ← if rev then O.extract p i.1 (O.hi p) else O.extract p (O.lo p) i.2
      .ok (false, part, r.fail, r.tests)

/-! ## Lemmas on the set of intervals -/

theorem cas1_bounds (a b : K) (l : List (K × K)) :
    ∀ i ∈ cas1 a b l, (i.1 = a ∨ ∃ j ∈ l, i.1 = j.1) ∧ (i.2 = b ∨ ∃ j ∈ l, i.2 = j.2) := by
  induction l with
  | nil => simp [cas1]
  | cons j l ih =>
    intro i hi
    unfold cas1 at hi
    split at hi
    · rcases List.mem_cons.1 hi with rfl | hi
      · simp
      · exact ⟨Or.inr ⟨i, hi, rfl⟩, Or.inr ⟨i, hi, rfl⟩⟩
    · split at hi
      · rcases List.mem_cons.1 hi with rfl | hi
        · exact ⟨Or.inl rfl, Or.inr ⟨j, by simp, rfl⟩⟩
        · exact ⟨Or.inr ⟨i, by simp [hi], rfl⟩, Or.inr ⟨i, by simp [hi], rfl⟩⟩
      · obtain ⟨h1, h2⟩ := ih i hi
        refine ⟨h1.imp id ?_, h2.imp id ?_⟩
        · rintro ⟨k, hk, e⟩; exact ⟨k, by simp [hk], e⟩
        · rintro ⟨k, hk, e⟩; exact ⟨k, by simp [hk], e⟩

theorem cas2Loop_bounds (b e : K) (l : List (K × K)) :
    ((cas2Loop b e l).1 = b ∨ (cas2Loop b e l).1 = e ∨ ∃ j ∈ l, (cas2Loop b e l).1 = j.2) ∧ ∀ i ∈ (cas2Loop b e l).2, i ∈ l := by
  induction l generalizing e with
  | nil => simp [cas2Loop]
  | cons j l ih =>
    have up : ∀ (x : K), (∃ k ∈ l, x = k.2) → ∃ k ∈ j :: l, x = k.2 := fun x ⟨k, hk, e⟩ => ⟨k, by simp [hk], e⟩
    unfold cas2Loop
    split
    · refine ⟨?_, ?_⟩
      · rcases (ih b).1 with h | h | h
        exacts [Or.inl h, Or.inl h, Or.inr (Or.inr (up _ h))]
      · intro i hi
        rcases List.mem_cons.1 hi with rfl | hi
        · simp
        · exact List.mem_cons_of_mem _ ((ih b).2 i hi)
    · split
      · exact ⟨Or.inr (Or.inr ⟨j, by simp, rfl⟩), fun i hi => List.mem_cons_of_mem _ hi⟩
      · split
        · exact ⟨Or.inl rfl, by simp⟩
        · refine ⟨?_, fun i hi => List.mem_cons_of_mem _ ((ih e).2 i hi)⟩
          rcases (ih e).1 with h | h | h
          exacts [Or.inl h, Or.inr (Or.inl h), Or.inr (Or.inr (up _ h))]

theorem unionInterval_bounds (a b : K) (l : List (K × K)) :
    ∀ i ∈ unionInterval a b l, (i.1 = a ∨ ∃ j ∈ l, i.1 = j.1) ∧ (i.2 = b ∨ ∃ j ∈ l, i.2 = j.2) := by
  induction l with
  | nil => simp [unionInterval]
  | cons j l ih =>
    have up2 : ∀ (x : K), (∃ k ∈ l, x = k.2) → ∃ k ∈ j :: l, x = k.2 := fun x ⟨k, hk, e⟩ => ⟨k, by simp [hk], e⟩
    have up1 : ∀ (x : K), (∃ k ∈ l, x = k.1) → ∃ k ∈ j :: l, x = k.1 := fun x ⟨k, hk, e⟩ => ⟨k, by simp [hk], e⟩
    have self : ∀ i : K × K, i ∈ l → (i.1 = a ∨ ∃ k ∈ j :: l, i.1 = k.1) ∧ (i.2 = b ∨ ∃ k ∈ j :: l, i.2 = k.2) :=
      fun i hi => ⟨Or.inr ⟨i, by simp [hi], rfl⟩, Or.inr ⟨i, by simp [hi], rfl⟩⟩
    have loop : ∀ e, e = b ∨ e = j.2 → ∀ i : K × K, i ∈ ((j.1, (cas2Loop b e l).1) :: (cas2Loop b e l).2) →
        (i.1 = a ∨ ∃ k ∈ j :: l, i.1 = k.1) ∧ (i.2 = b ∨ ∃ k ∈ j :: l, i.2 = k.2) := by
      intro e he i hi
      obtain ⟨h1, h2⟩ := cas2Loop_bounds b e l
      rcases List.mem_cons.1 hi with rfl | hi
      · refine ⟨Or.inr ⟨j, by simp, rfl⟩, ?_⟩
        rcases h1 with h | h | h
        · exact Or.inl h
        · rcases he with rfl | rfl
          · exact Or.inl h
          · exact Or.inr ⟨j, by simp, h⟩
        · exact Or.inr (up2 _ h)
      · exact self i (h2 i hi)
    intro i hi
    unfold unionInterval at hi
    split at hi
    · exact cas1_bounds a b (j :: l) i hi
    · split at hi
      · unfold cas2 at hi
        split at hi
        · exact loop b (Or.inl rfl) i hi
        · split at hi
          · rcases List.mem_cons.1 hi with rfl | hi
            · exact ⟨Or.inr ⟨j, by simp, rfl⟩, Or.inr ⟨j, by simp, rfl⟩⟩
            · exact self i hi
          · split at hi
            · simp at hi; subst hi
              exact ⟨Or.inr ⟨j, by simp, rfl⟩, Or.inl rfl⟩
            · exact loop _ (by simp) i hi
      · rcases List.mem_cons.1 hi with rfl | hi
        · exact ⟨Or.inr ⟨_, by simp, rfl⟩, Or.inr ⟨_, by simp, rfl⟩⟩
        · obtain ⟨h1, h2⟩ := ih i hi
          exact ⟨h1.imp id (up1 _), h2.imp id (up2 _)⟩

/-! ## Invariant of the loop -/

/-- Invariant of the loop, `x` being the starting end: before the first test only `x` is in the set, afterwards all the parameters of the
range in the set are free. -/
structure DichoInv (Free : K → Prop) (a b x t : K) (l : List (K × K)) : Prop where
  sep : Separated l
  cov : Covers l x
  bnd : ∀ i ∈ l, i.1 ≤ b ∧ a ≤ i.2
  t1 : a ≤ t
  t2 : t ≤ b
  st : (t = x ∧ ∀ u, Covers l u → u = x) ∨ ((∀ u, a ≤ u → u ≤ b → Covers l u → Free u) ∧ ¬ Covers l t)

theorem pairwise_le {i : K × K} {l : List (K × K)} (hs : Separated (i :: l)) : ∀ j ∈ i :: l, i.1 ≤ j.1 := by
  intro j hj
  rcases List.mem_cons.1 hj with rfl | hj
  · exact le_rfl
  · exact le_trans (hs.nonempty i (by simp)) (le_of_lt (hs.head_lt j hj))

theorem begin_fwd {a b : K} {l : List (K × K)} (hs : Separated l) (hc : Covers l a) (hb : ∀ i ∈ l, i.1 ≤ b ∧ a ≤ i.2) :
    ∃ i rest, l = i :: rest ∧ i.1 ≤ a ∧ a ≤ i.2 := by
  cases l with
  | nil => obtain ⟨i, hi, -⟩ := hc; simp at hi
  | cons i rest =>
    obtain ⟨j, hj, h1, h2⟩ := hc
    exact ⟨i, rest, rfl, le_trans (pairwise_le hs j hj) h1, (hb i (by simp)).2⟩

theorem next_fwd {a b : K} {l : List (K × K)} (hs : Separated l) (hc : Covers l a) (hb : ∀ i ∈ l, i.1 ≤ b ∧ a ≤ i.2)
    (hn : ¬ containsInterval a b l = true) :
    ∃ t, nextParam false (a, b) l = .ok t ∧ a ≤ t ∧ t ≤ b ∧ ¬ Covers l t ∧ ∃ i rest, l = i :: rest ∧ i.2 < t := by
  obtain ⟨i, rest, rfl, h1, h2⟩ := begin_fwd hs hc hb
  have hib : i.2 < b := by
    by_contra h
    push Not at h
    exact hn ((containsInterval_iff _ _ _).2 ⟨i, by simp, h1, h⟩)
  -- end of the gap
  obtain ⟨g, hg, hg1, hg2, hg3⟩ : ∃ g, nextParam false (a, b) (i :: rest) = .ok (1 / 2 * (i.2 + g)) ∧ i.2 < g ∧ g ≤ b ∧
      ∀ j ∈ rest, g ≤ j.1 := by
    cases rest with
    | nil => exact ⟨b, by simp [nextParam, ordered, isecond, ifirst], hib, le_rfl, by simp⟩
    | cons j rest =>
      refine ⟨j.1, by simp [nextParam, ordered, isecond, ifirst], hs.head_lt j (by simp), (hb j (by simp)).1, ?_⟩
      exact pairwise_le hs.tail
  refine ⟨_, hg, by linarith, by linarith, ?_, i, rest, rfl, by linarith⟩
  rintro ⟨j, hj, hj1, hj2⟩
  rcases List.mem_cons.1 hj with rfl | hj
  · linarith
  · have := hg3 j hj
    linarith

/-- Mirror of a list of intervals. -/
def flip (l : List (K × K)) : List (K × K) := (l.map (fun i => (-i.2, -i.1))).reverse

theorem flip_mem {l : List (K × K)} {i : K × K} : i ∈ flip l ↔ (-i.2, -i.1) ∈ l := by
  simp only [flip, List.mem_reverse, List.mem_map]
  constructor
  · rintro ⟨j, hj, rfl⟩; simpa using hj
  · intro h; exact ⟨_, h, by simp⟩

theorem flip_separated {l : List (K × K)} (hs : Separated l) : Separated (flip l) := by
  constructor
  · intro i hi
    have := hs.nonempty _ (flip_mem.1 hi)
    simp at this; exact this
  · unfold flip
    rw [List.pairwise_reverse, List.pairwise_map]
    refine hs.sorted.imp ?_
    intro i j h
    simpa using h

theorem flip_covers {l : List (K × K)} {t : K} : Covers (flip l) t ↔ Covers l (-t) := by
  constructor
  · rintro ⟨i, hi, h1, h2⟩
    exact ⟨_, flip_mem.1 hi, by simpa, by simpa⟩
  · rintro ⟨i, hi, h1, h2⟩
    exact ⟨(-i.2, -i.1), flip_mem.2 (by simpa using hi), by simp; linarith, by simp; linarith⟩

theorem flip_contains {l : List (K × K)} {a b : K} : containsInterval (-b) (-a) (flip l) = containsInterval a b l := by
  rw [Bool.eq_iff_iff, containsInterval_iff, containsInterval_iff]
  constructor
  · rintro ⟨i, hi, h1, h2⟩
    exact ⟨_, flip_mem.1 hi, by simp; linarith, by simp; linarith⟩
  · rintro ⟨i, hi, h1, h2⟩
    exact ⟨(-i.2, -i.1), flip_mem.2 (by simpa using hi), by simpa, by simpa⟩

theorem flip_reverse (l : List (K × K)) : flip l = l.reverse.map (fun i => (-i.2, -i.1)) := by
  unfold flip; rw [List.map_reverse]

theorem nextParam_rev {a b : K} (l : List (K × K)) {t : K} (h : nextParam false (-b, -a) (flip l) = .ok t) :
    nextParam true (a, b) l = .ok (-t) := by
  unfold nextParam at h ⊢
  simp only [ordered, Bool.false_eq_true, if_false, if_true, flip_reverse] at h ⊢
  cases hl : l.reverse with
  | nil => rw [hl] at h; simp at h
  | cons i rest =>
    rw [hl] at h
    cases rest with
    | nil =>
      simp [isecond, ifirst] at h ⊢
      rw [← h]; ring
    | cons j rest =>
      simp [isecond, ifirst] at h ⊢
      rw [← h]; ring

theorem begin_rev {a b : K} {l : List (K × K)} (hs : Separated l) (hc : Covers l b) (hb : ∀ i ∈ l, i.1 ≤ b ∧ a ≤ i.2) :
    ∃ i rest, l.reverse = i :: rest ∧ i.1 ≤ b ∧ b ≤ i.2 ∧ i ∈ l := by
  have hb' : ∀ i ∈ flip l, i.1 ≤ -a ∧ -b ≤ i.2 := by
    intro i hi
    obtain ⟨h1, h2⟩ := hb _ (flip_mem.1 hi)
    simp at h1 h2
    constructor <;> linarith
  obtain ⟨i, rest, h, h1, h2⟩ := begin_fwd (flip_separated hs) (flip_covers.2 (by simpa using hc)) hb'
  rw [flip_reverse] at h
  cases hl : l.reverse with
  | nil => rw [hl] at h; simp at h
  | cons j rest' =>
    rw [hl] at h
    simp at h
    obtain ⟨rfl, -⟩ := h
    simp at h1 h2
    refine ⟨j, rest', rfl, h2, h1, ?_⟩
    have : j ∈ l.reverse := by rw [hl]; simp
    simpa using this

theorem next_rev {a b : K} {l : List (K × K)} (hs : Separated l) (hc : Covers l b) (hb : ∀ i ∈ l, i.1 ≤ b ∧ a ≤ i.2)
    (hn : ¬ containsInterval a b l = true) :
    ∃ t, nextParam true (a, b) l = .ok t ∧ a ≤ t ∧ t ≤ b ∧ ¬ Covers l t ∧ ∃ i rest, l.reverse = i :: rest ∧ t < i.1 := by
  have hb' : ∀ i ∈ flip l, i.1 ≤ -a ∧ -b ≤ i.2 := by
    intro i hi
    obtain ⟨h1, h2⟩ := hb _ (flip_mem.1 hi)
    simp at h1 h2
    constructor <;> linarith
  obtain ⟨t, h1, h2, h3, h4, i, rest, h5, h6⟩ := next_fwd (flip_separated hs) (flip_covers.2 (by simpa using hc)) hb'
    (by rw [flip_contains]; exact hn)
  refine ⟨-t, nextParam_rev l h1, by linarith, by linarith, fun h => h4 (flip_covers.2 h), ?_⟩
  rw [flip_reverse] at h5
  cases hl : l.reverse with
  | nil => rw [hl] at h5; simp at h5
  | cons j rest' =>
    rw [hl] at h5
    simp at h5
    obtain ⟨rfl, -⟩ := h5
    simp at h6
    exact ⟨j, rest', rfl, by linarith⟩

/-- The starting end. -/
def start (rev : Bool) (a b : K) : K := if rev then b else a

theorem next_spec (rev : Bool) {a b : K} {l : List (K × K)} (hs : Separated l) (hc : Covers l (start rev a b))
    (hb : ∀ i ∈ l, i.1 ≤ b ∧ a ≤ i.2) (hn : ¬ containsInterval a b l = true) :
    ∃ t, nextParam rev (a, b) l = .ok t ∧ a ≤ t ∧ t ≤ b ∧ ¬ Covers l t ∧ ∃ i rest, ordered rev l = i :: rest ∧
      if rev then t < i.1 else i.2 < t := by
  cases rev with
  | false => simpa [ordered] using next_fwd hs (by simpa [start] using hc) hb hn
  | true => simpa [ordered] using next_rev hs (by simpa [start] using hc) hb hn

theorem unionInterval_inv {Free : K → Prop} {a b x t : K} {l : List (K × K)} (hi : DichoInv Free a b x t l) (hx1 : a ≤ x) (hx2 : x ≤ b)
    {I : K × K} (h1 : I.1 ≤ t) (h2 : t ≤ I.2) (hfree : ∀ u, I.1 ≤ u → u ≤ I.2 → a ≤ u → u ≤ b → Free u) :
    Separated (unionInterval I.1 I.2 l) ∧ Covers (unionInterval I.1 I.2 l) x ∧
    (∀ i ∈ unionInterval I.1 I.2 l, i.1 ≤ b ∧ a ≤ i.2) ∧
    (∀ u, a ≤ u → u ≤ b → Covers (unionInterval I.1 I.2 l) u → Free u) := by
  obtain ⟨s1, -, s3⟩ := unionInterval_spec I.1 I.2 (le_trans h1 h2) l hi.sep
  refine ⟨s1, (s3 x).2 (Or.inr hi.cov), ?_, ?_⟩
  · intro i hi'
    obtain ⟨b1, b2⟩ := unionInterval_bounds _ _ _ i hi'
    constructor
    · rcases b1 with b1 | ⟨j, hj, b1⟩
      · rw [b1]; exact le_trans h1 hi.t2
      · rw [b1]; exact (hi.bnd j hj).1
    · rcases b2 with b2 | ⟨j, hj, b2⟩
      · rw [b2]; exact le_trans hi.t1 h2
      · rw [b2]; exact (hi.bnd j hj).2
  · intro u u1 u2 hu
    rcases (s3 u).1 hu with hu | hu
    · exact hfree u hu.1 hu.2 u1 u2
    · rcases hi.st with ⟨e, h⟩ | ⟨h, -⟩
      · have := h u hu
        subst this
        subst e
        exact hfree t h1 h2 u1 u2
      · exact h u u1 u2 hu

theorem dichoLoop_spec (query : S → K → Option ((K × K) × S)) (rev : Bool) (a b : K) (hab : a ≤ b) (Inv : S → Prop) (Free : K → Prop)
    (hq : QueryOK query a b Inv Free) (fuel : Nat) (s : S) (t : K) (l : List (K × K)) (n : Nat) (r : DichoRes K) (hinv : Inv s)
    (hi : DichoInv Free a b (start rev a b) t l)
    (hg : t = start rev a b ∨ ∃ i rest, ordered rev l = i :: rest ∧ if rev then t < i.1 else i.2 < t)
    (hr : dichoLoop query rev (a, b) fuel s t l n = .ok r) :
    (r.valid = true → r.fail = none ∧ ∀ u, a ≤ u → u ≤ b → Free u) ∧
    (r.valid = false → ∃ tf, r.fail = some tf ∧ DichoInv Free a b (start rev a b) tf r.list ∧
      (tf = start rev a b ∨ ∃ i rest, ordered rev r.list = i :: rest ∧ if rev then tf < i.1 else i.2 < tf) ∧
      ∃ s', Inv s' ∧ query s' tf = none) := by
  have hx : a ≤ start rev a b ∧ start rev a b ≤ b := by
    unfold start; split
    · exact ⟨hab, le_rfl⟩
    · exact ⟨le_rfl, hab⟩
  induction fuel generalizing s t l n with
  | zero => simp [dichoLoop] at hr
  | succ fuel ih =>
    unfold dichoLoop at hr
    cases hqt : query s t with
    | none =>
      rw [hqt] at hr
      obtain rfl := Except.ok.inj hr
      exact ⟨by simp, fun _ => ⟨t, rfl, hi, hg, s, hinv, hqt⟩⟩
    | some y =>
      obtain ⟨I, s'⟩ := y
      rw [hqt] at hr
      simp only at hr
      obtain ⟨k1, k2, k3, k4⟩ := hq.step s t I s' hinv hi.t1 hi.t2 hqt
      obtain ⟨u1, u2, u3, u4⟩ := unionInterval_inv hi hx.1 hx.2 k2 k3 k4
      by_cases hc : containsInterval a b (unionInterval I.1 I.2 l) = true
      · rw [if_pos hc] at hr
        obtain rfl := Except.ok.inj hr
        refine ⟨fun _ => ⟨rfl, ?_⟩, by simp⟩
        obtain ⟨i, hi', h1, h2⟩ := (containsInterval_iff _ _ _).1 hc
        intro u hu1 hu2
        exact u4 u hu1 hu2 ⟨i, hi', le_trans h1 hu1, le_trans hu2 h2⟩
      · rw [if_neg hc] at hr
        obtain ⟨t', n1, n2, n3, n4, n5⟩ := next_spec rev u1 u2 u3 hc
        rw [n1] at hr
        exact ih s' t' _ (n + 1) k1 ⟨u1, u2, u3, n2, n3, Or.inr ⟨u4, n4⟩⟩ (Or.inr n5) hr

theorem DichoInv.init (Free : K → Prop) (rev : Bool) (a b : K) (hab : a ≤ b) :
    DichoInv Free a b (start rev a b) (start rev a b) (unionInterval (start rev a b) (start rev a b) []) := by
  have hx : a ≤ start rev a b ∧ start rev a b ≤ b := by
    unfold start; split
    · exact ⟨hab, le_rfl⟩
    · exact ⟨le_rfl, hab⟩
  refine ⟨⟨by simp [unionInterval], by simp [unionInterval]⟩, ⟨(start rev a b, start rev a b), by simp [unionInterval], le_rfl, le_rfl⟩, ?_, hx.1, hx.2,
    Or.inl ⟨rfl, ?_⟩⟩
  · intro i hi
    simp [unionInterval] at hi
    subst hi
    exact ⟨hx.2, hx.1⟩
  · rintro u ⟨i, hi, h1, h2⟩
    simp [unionInterval] at hi
    subst hi
    exact le_antisymm h2 h1

theorem ifirst_start (rev : Bool) (a b : K) : ifirst rev (a, b) = start rev a b := by
  unfold ifirst start; rfl

/-! ## Properties -/

/-- C32, acceptance: if the dichotomy returns true (in any direction) the path is returned whole and every parameter of its time range
is in a certified interval. -/
theorem C32_valid (O : Ops K C P) (query : S → K → Option ((K × K) × S)) (s : S) (rev : Bool) (fuel : Nat) (p : P)
    (hp : O.lo p ≤ O.hi p) (Inv : S → Prop) (Free : K → Prop) (hq : QueryOK query (O.lo p) (O.hi p) Inv Free) (hs : Inv s)
    (vp : P) (rep : Option K) (n : Nat) (hr : dichotomy O query s rev fuel p = .ok (true, vp, rep, n)) :
    vp = p ∧ rep = none ∧ ∀ t, O.lo p ≤ t → t ≤ O.hi p → Free t := by
  simp only [dichotomy, ifirst_start] at hr
  cases hl : dichoLoop query rev (O.lo p, O.hi p) fuel s (start rev (O.lo p) (O.hi p))
      (unionInterval (start rev (O.lo p) (O.hi p)) (start rev (O.lo p) (O.hi p)) []) 0 with
  | error e => rw [hl] at hr; simp [bind, Except.bind] at hr
  | ok r =>
    rw [hl] at hr
    simp only [bind, Except.bind] at hr
    have sp := dichoLoop_spec query rev _ _ hp Inv Free hq fuel s _ _ 0 r hs (DichoInv.init Free rev _ _ hp) (Or.inl rfl) hl
    cases hv : r.valid with
    | true =>
      rw [hv] at hr
      simp at hr
      obtain ⟨h1, h2⟩ := sp.1 hv
      exact ⟨hr.1.symm, hr.2.1 ▸ h1, h2⟩
    | false =>
      rw [hv] at hr
      simp only [Bool.false_eq_true, if_false] at hr
      split at hr
      · simp at hr
      · rename_i i rest hord
        split at hr <;> split at hr <;> simp at hr

/-- C32, rejection: if it returns false, the reported parameter `tf` is one at which the query failed; the part returned goes from the
starting end to a parameter `tl`; either `tf` is the starting end itself and the part is reduced to it, or `tl` is strictly before `tf`
(after when `reverse`) and all the parameters of the part are in certified intervals. -/
theorem C32_fail (O : Ops K C P) (query : S → K → Option ((K × K) × S)) (s : S) (rev : Bool) (fuel : Nat) (p : P)
    (hp : O.lo p ≤ O.hi p) (Inv : S → Prop) (Free : K → Prop) (hq : QueryOK query (O.lo p) (O.hi p) Inv Free) (hs : Inv s)
    (vp : P) (rep : Option K) (n : Nat) (hr : dichotomy O query s rev fuel p = .ok (false, vp, rep, n)) :
    ∃ tf tl, rep = some tf ∧ O.lo p ≤ tf ∧ tf ≤ O.hi p ∧ (∃ s', Inv s' ∧ query s' tf = none) ∧
      if rev then O.extract p tl (O.hi p) = .ok vp ∧
        ((tf = O.hi p ∧ tl = O.hi p) ∨ (tf < tl ∧ tl ≤ O.hi p ∧ ∀ t, tl ≤ t → t ≤ O.hi p → Free t))
      else O.extract p (O.lo p) tl = .ok vp ∧
        ((tf = O.lo p ∧ tl = O.lo p) ∨ (O.lo p ≤ tl ∧ tl < tf ∧ ∀ t, O.lo p ≤ t → t ≤ tl → Free t)) := by
  simp only [dichotomy, ifirst_start] at hr
  cases hl : dichoLoop query rev (O.lo p, O.hi p) fuel s (start rev (O.lo p) (O.hi p))
      (unionInterval (start rev (O.lo p) (O.hi p)) (start rev (O.lo p) (O.hi p)) []) 0 with
  | error e => rw [hl] at hr; simp [bind, Except.bind] at hr
  | ok r =>
    rw [hl] at hr
    simp only [bind, Except.bind] at hr
    have sp := dichoLoop_spec query rev _ _ hp Inv Free hq fuel s _ _ 0 r hs (DichoInv.init Free rev _ _ hp) (Or.inl rfl) hl
    cases hv : r.valid with
    | true => rw [hv] at hr; simp at hr
    | false =>
      rw [hv] at hr
      simp only [Bool.false_eq_true, if_false] at hr
      obtain ⟨tf, h1, h2, h3, h4⟩ := sp.2 hv
      cases rev with
      | false =>
        obtain ⟨i, rest, hl', hi1, hi2⟩ := begin_fwd h2.sep (by simpa [start] using h2.cov) h2.bnd
        simp only [ordered, Bool.false_eq_true, if_false, hl'] at hr h3 ⊢
        cases hx : O.extract p (O.lo p) i.2 with
        | error e => rw [hx] at hr; simp at hr
        | ok q =>
          rw [hx] at hr
          simp at hr
          obtain ⟨rfl, rfl, -⟩ := hr
          have hmem : i ∈ r.list := by rw [hl']; simp
          refine ⟨tf, i.2, h1, h2.t1, h2.t2, h4, hx, ?_⟩
          rcases h2.st with ⟨e, h⟩ | ⟨h, hnc⟩
          · exact Or.inl ⟨e, by simpa [start] using h i.2 ⟨i, hmem, h2.sep.nonempty i hmem, le_rfl⟩⟩
          · refine Or.inr ⟨hi2, ?_, ?_⟩
            · rcases h3 with h3 | ⟨j, rest', e, h3⟩
              · exact absurd h2.cov (h3 ▸ hnc)
              · rw [List.cons.injEq] at e; rw [e.1]; exact h3
            · intro u u1 u2
              exact h u u1 (le_trans u2 (by
                rcases h3 with h3 | ⟨j, rest', e, h3⟩
                · exact absurd h2.cov (h3 ▸ hnc)
                · rw [List.cons.injEq] at e; rw [e.1]; exact le_trans (le_of_lt h3) h2.t2)) ⟨i, hmem, le_trans hi1 u1, u2⟩
      | true =>
        obtain ⟨i, rest, hl', hi1, hi2, hmem⟩ := begin_rev h2.sep (by simpa [start] using h2.cov) h2.bnd
        simp only [ordered, if_true, hl'] at hr h3 ⊢
        cases hx : O.extract p i.1 (O.hi p) with
        | error e => rw [hx] at hr; simp at hr
        | ok q =>
          rw [hx] at hr
          simp at hr
          obtain ⟨rfl, rfl, -⟩ := hr
          refine ⟨tf, i.1, h1, h2.t1, h2.t2, h4, hx, ?_⟩
          rcases h2.st with ⟨e, h⟩ | ⟨h, hnc⟩
          · exact Or.inl ⟨e, by simpa [start] using h i.1 ⟨i, hmem, le_rfl, h2.sep.nonempty i hmem⟩⟩
          · have hlt : tf < i.1 := by
              rcases h3 with h3 | ⟨j, rest', e, h3⟩
              · exact absurd h2.cov (h3 ▸ hnc)
              · rw [List.cons.injEq] at e; rw [e.1]; exact h3
            refine Or.inr ⟨hlt, hi1, ?_⟩
            intro u u1 u2
            exact h u (le_trans h2.t1 (le_trans (le_of_lt hlt) u1)) u2 ⟨i, hmem, u1, le_trans u2 hi2⟩

/-! ## Termination -/

/-- Points of `[a, b]` at pairwise distance more than `δ` are at most `(b - a) / δ + 1`. -/
theorem card_separated (δ a : K) (hδ : 0 < δ) (F : Finset K) : ∀ b, F.Nonempty → (∀ x ∈ F, a ≤ x ∧ x ≤ b) →
    (∀ x ∈ F, ∀ y ∈ F, x < y → δ < y - x) → (F.card : K) * δ ≤ b - a + δ := by
  classical
  induction F using Finset.induction_on_max with
  | empty => intro b h; simp at h
  | insert M s hM ih =>
    intro b _ hin hsep
    have hMs : M ∉ s := fun h => lt_irrefl _ (hM M h)
    rw [Finset.card_insert_of_notMem hMs]
    have hMb := hin M (by simp)
    rcases s.eq_empty_or_nonempty with rfl | hne
    · simp; linarith [hMb.1, hMb.2]
    · have := ih (M - δ) hne ?_ ?_
      · push_cast
        linarith [hMb.2]
      · intro x hx
        refine ⟨(hin x (by simp [hx])).1, ?_⟩
        have := hsep x (by simp [hx]) M (by simp) (hM x hx)
        linarith
      · intro x hx y hy hxy
        exact hsep x (by simp [hx]) y (by simp [hy]) hxy

theorem dichoLoop_bound (query : S → K → Option ((K × K) × S)) (rev : Bool) (a b δ : K) (hab : a ≤ b) (hδ : 0 < δ) (Inv : S → Prop)
    (hq : ∀ s t I s', Inv s → a ≤ t → t ≤ b → query s t = some (I, s') →
      Inv s' ∧ (I.1 ≤ t - δ ∨ I.1 ≤ a) ∧ (t + δ ≤ I.2 ∨ b ≤ I.2) ∧ I.1 ≤ t ∧ t ≤ I.2)
    (fuel : Nat) (s : S) (hs : Inv s) (t : K) (l : List (K × K)) (F : Finset K)
    (hi : DichoInv (fun _ => True) a b (start rev a b) t l) (hF : F = ∅ ∨ ¬ Covers l t)
    (hin : ∀ x ∈ F, a ≤ x ∧ x ≤ b) (hsep : ∀ x ∈ F, ∀ y ∈ F, x < y → δ < y - x)
    (hcov : ∀ x ∈ F, ∀ u, a ≤ u → u ≤ b → |u - x| ≤ δ → Covers l u)
    (hfuel : b - a < (F.card + fuel - 1 : Nat) * δ) (hf0 : F = ∅ → 0 < fuel) :
    ∃ r, dichoLoop query rev (a, b) fuel s t l F.card = .ok r ∧ ((r.tests : K) - 1) * δ ≤ b - a := by
  classical
  have hx : a ≤ start rev a b ∧ start rev a b ≤ b := by
    unfold start; split
    · exact ⟨hab, le_rfl⟩
    · exact ⟨le_rfl, hab⟩
  induction fuel generalizing s t l F with
  | zero =>
    exfalso
    rcases F.eq_empty_or_nonempty with rfl | hne
    · simp at hf0
    · have := card_separated δ a hδ F b hne hin hsep
      have h1 : 1 ≤ F.card := hne.card_pos
      rw [Nat.add_zero, Nat.cast_sub h1] at hfuel
      push_cast at hfuel
      linarith
  | succ fuel ih =>
    -- `t` is far from all the tested parameters
    have hfar : ∀ x ∈ F, δ < |t - x| := by
      intro x hxF
      rcases hF with rfl | hF
      · simp at hxF
      · by_contra h
        push Not at h
        exact hF (hcov x hxF t hi.t1 hi.t2 h)
    have htF : t ∉ F := by
      intro h
      have := hfar t h
      simp at this
      linarith
    have hcard : (insert t F).card = F.card + 1 := Finset.card_insert_of_notMem htF
    have hin' : ∀ x ∈ insert t F, a ≤ x ∧ x ≤ b := by
      intro x hx'
      rcases Finset.mem_insert.1 hx' with rfl | hx'
      · exact ⟨hi.t1, hi.t2⟩
      · exact hin x hx'
    have hsep' : ∀ x ∈ insert t F, ∀ y ∈ insert t F, x < y → δ < y - x := by
      intro x hxm y hym hxy
      rcases Finset.mem_insert.1 hxm with rfl | hx' <;> rcases Finset.mem_insert.1 hym with rfl | hy'
      · exact absurd hxy (lt_irrefl _)
      · have := hfar y hy'
        rw [abs_of_neg (by linarith)] at this
        linarith
      · have := hfar x hx'
        rw [abs_of_pos (by linarith)] at this
        linarith
      · exact hsep x hx' y hy' hxy
    have hbound : ((F.card + 1 : Nat) : K) * δ ≤ b - a + δ := by
      rw [← hcard]
      exact card_separated δ a hδ _ b ⟨t, by simp⟩ hin' hsep'
    unfold dichoLoop
    cases hqt : query s t with
    | none =>
      refine ⟨_, rfl, ?_⟩
      simp only
      push_cast at hbound ⊢
      linarith
    | some y =>
      obtain ⟨I, s'⟩ := y
      simp only
      obtain ⟨k0, k1, k2, k3, k4⟩ := hq s t I s' hs hi.t1 hi.t2 hqt
      obtain ⟨u1, u2, u3, u4⟩ := unionInterval_inv hi hx.1 hx.2 k3 k4 (fun _ _ _ _ _ => trivial)
      obtain ⟨-, -, s3⟩ := unionInterval_spec I.1 I.2 (le_trans k3 k4) l hi.sep
      by_cases hc : containsInterval a b (unionInterval I.1 I.2 l) = true
      · rw [if_pos hc]
        refine ⟨_, rfl, ?_⟩
        simp only
        push_cast at hbound ⊢
        linarith
      · rw [if_neg hc]
        obtain ⟨t', n1, n2, n3, n4, n5⟩ := next_spec rev u1 u2 u3 hc
        rw [n1]
        simp only [bind, Except.bind]
        have := ih s' k0 t' _ (insert t F) ⟨u1, u2, u3, n2, n3, Or.inr ⟨u4, n4⟩⟩ (Or.inr n4) hin' hsep' ?_ ?_ (by simp)
        · rwa [hcard] at this
        · intro x hx' u hu1 hu2 hux
          rcases Finset.mem_insert.1 hx' with rfl | hx'
          · refine (s3 u).2 (Or.inl ?_)
            rw [abs_le] at hux
            constructor
            · rcases k1 with k1 | k1
              · linarith
              · exact le_trans k1 hu1
            · rcases k2 with k2 | k2
              · linarith
              · exact le_trans hu2 k2
          · exact (s3 u).2 (Or.inr (hcov x hx' u hu1 hu2 hux))
        · rw [hcard]
          have : F.card + 1 + fuel - 1 = F.card + (fuel + 1) - 1 := by omega
          rw [this]; exact hfuel

/-- C32, termination: if each answer extends at least `δ > 0` on both sides (or up to the ends of the range), the loop ends and the number
`n` of evaluations satisfies `(n - 1) δ ≤ length`. -/
theorem C32_terminates (O : Ops K C P) (query : S → K → Option ((K × K) × S)) (s : S) (rev : Bool) (fuel : Nat) (p : P)
    (hp : O.lo p ≤ O.hi p) (δ : K) (hδ : 0 < δ) (Inv : S → Prop) (hs : Inv s)
    (hq : ∀ s t I s', Inv s → O.lo p ≤ t → t ≤ O.hi p → query s t = some (I, s') →
      Inv s' ∧ (I.1 ≤ t - δ ∨ I.1 ≤ O.lo p) ∧ (t + δ ≤ I.2 ∨ O.hi p ≤ I.2) ∧ I.1 ≤ t ∧ t ≤ I.2)
    (hfuel : O.len p < fuel * δ) (hex : ∀ a b, ∃ q, O.extract p a b = .ok q) :
    ∃ v vp rep n, dichotomy O query s rev (fuel + 1) p = .ok (v, vp, rep, n) ∧ ((n : K) - 1) * δ ≤ O.len p := by
  obtain ⟨r, hr, hn⟩ := dichoLoop_bound query rev (O.lo p) (O.hi p) δ hp hδ Inv hq (fuel + 1) s hs _ _ ∅
    (DichoInv.init (fun _ => True) rev _ _ hp) (Or.inl rfl) (by simp) (by simp) (by simp) (by simpa [Ops.len] using hfuel) (by simp)
  rw [Finset.card_empty] at hr
  simp only [dichotomy, ifirst_start, hr, bind, Except.bind]
  cases hv : r.valid with
  | true => exact ⟨_, _, _, _, rfl, hn⟩
  | false =>
    simp only [Bool.false_eq_true, if_false]
    have hq' : QueryOK query (O.lo p) (O.hi p) Inv (fun _ => True) :=
      ⟨fun s t I s' h0 h1 h2 h3 => ⟨(hq s t I s' h0 h1 h2 h3).1, (hq s t I s' h0 h1 h2 h3).2.2.2.1, (hq s t I s' h0 h1 h2 h3).2.2.2.2, fun _ _ _ _ _ => trivial⟩⟩
    obtain ⟨tf, -, h2, -, -⟩ := (dichoLoop_spec query rev _ _ hp _ _ hq' (fuel + 1) s _ _ 0 r hs
      (DichoInv.init _ rev _ _ hp) (Or.inl rfl) hr).2 hv
    cases rev with
    | false =>
      obtain ⟨i, rest, hl', -, -⟩ := begin_fwd h2.sep (by simpa [start] using h2.cov) h2.bnd
      obtain ⟨q, hq⟩ := hex (O.lo p) i.2
      simp only [ordered, Bool.false_eq_true, if_false, hl', hq]
      exact ⟨_, _, _, _, rfl, hn⟩
    | true =>
      obtain ⟨i, rest, hl', -, -⟩ := begin_rev h2.sep (by simpa [start] using h2.cov) h2.bnd
      obtain ⟨q, hq⟩ := hex i.1 (O.hi p)
      simp only [ordered, if_true, hl', hq]
      exact ⟨_, _, _, _, rfl, hn⟩

/-! ## Examples -/

/-- One obstacle point at `3/2` on a path from 0 to 2: the query at `t` certifies a ball of half the distance to it. -/
def exQuery : Unit → ℚ → Option ((ℚ × ℚ) × Unit) := fun _ t =>
  if t = 3 / 2 then none else some ((t - |t - 3 / 2| / 2, t + |t - 3 / 2| / 2), ())

example : QueryOK exQuery 0 2 (fun _ => True) (fun t => t ≠ 3 / 2) := by
  constructor
  intro s t I s' _ _ _ h
  unfold exQuery at h
  by_cases ht : t = 3 / 2
  · rw [if_pos ht] at h; simp at h
  · rw [if_neg ht] at h
    simp at h
    obtain ⟨rfl, -⟩ := h
    have hpos : 0 < |t - 3 / 2| := abs_pos.2 (sub_ne_zero.2 ht)
    refine ⟨trivial, by simp; linarith, by simp; linarith, ?_⟩
    rintro u h1 h2 - - rfl
    simp at h1 h2
    rcases le_total 0 (t - 3 / 2) with h | h
    · rw [abs_of_nonneg h] at h1 h2 hpos; linarith
    · rw [abs_of_nonpos h] at h1 h2 hpos; linarith

/-- Query with obstacles in `[3/2, 7/4]`, and certified balls of radius 1/8 elsewhere on the line. -/
def exQuery2 : Unit → ℚ → Option ((ℚ × ℚ) × Unit) := fun _ t =>
  if 11 / 8 < t ∧ t < 15 / 8 then none else some ((t - 1 / 8, t + 1 / 8), ())

example : (dichotomy Validation.exOps exQuery2 () false 30 (0, 1)).toOption.map (·.1) = some true := by decide +kernel
example : (dichotomy Validation.exOps exQuery2 () true 30 (0, 2)).toOption.map (fun r => (r.1, r.2.1)) = some (false, (15 / 8, 2)) := by
  decide +kernel
example : (progressive Validation.exOps exQuery2 () false 30 (0, 2)).toOption.map (fun r => (r.1, r.2.1, r.2.2.1)) =
    some (false, (0, 11 / 8), some (3 / 2)) := by decide +kernel
example : (progressive Validation.exOps exQuery2 () true 30 (0, 1)).toOption.map (·.1) = some true := by decide +kernel

end Verif.CV
