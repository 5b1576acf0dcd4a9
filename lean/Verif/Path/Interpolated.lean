import Verif.Path.Straight
import Mathlib.Data.List.Sort

/-!
# Interpolated paths: model, and lemmas on sorted way points (C24, C25)
-/
set_option linter.unusedSectionVars false
namespace Verif.PathV
variable {K C : Type} [Field K] [LinearOrder K] [IsStrictOrderedRing K]

/-- `std::map<value_type, Configuration_t>`: a list sorted by strictly increasing key. -/
abbrev Pts (K C : Type) := List (K × C)

/-- `std::map::insert`, which does not overwrite (`InterpolatedPath::insert`: interpolated-path.hh:165-167). -/
def insertPt : Pts K C → K → C → Pts K C
  | [], t, q => [(t, q)]
  | x :: r, t, q => if t < x.1 then (t, q) :: x :: r else if x.1 < t then x :: insertPt r t q else x :: r

/-- `std::map::lower_bound`: position of the first key not less than `s`. -/
def lowerBound (l : Pts K C) (s : K) : Nat := l.findIdx (fun x => ¬ x.1 < s)

/-- `std::map::upper_bound`: position of the first key greater than `s`. -/
def upperBound (l : Pts K C) (s : K) : Nat := l.findIdx (fun x => s < x.1)

/-- Members of `InterpolatedPath`. -/
structure Ipath (K C : Type) where
  pr : K × K
  pts : Pts K C
  cons : Option (Cst K C)

/-- Constructors with two configurations: interpolated-path.cc:42-64. -/
def Ipath.create (init end_ : C) (tr : K × K) (cons : Option (Cst K C)) : Ipath K C :=
  ⟨tr, insertPt (insertPt [] tr.1 init) tr.2 end_, cons⟩

/-- `insert`: interpolated-path.hh:165-167. -/
def Ipath.insert (p : Ipath K C) (t : K) (q : C) : Ipath K C := { p with pts := insertPt p.pts t q }

/-- `impl_compute`: interpolated-path.cc:124-150. `--itB` on `begin()` and dereferencing `end()` are undefined behaviour. -/
def Ipath.impl (S : Space K C) (p : Ipath K C) (s : K) : Except Err C :=
  if s = p.pr.1 ∨ p.pr.2 - p.pr.1 = 0 then
    match p.pts.head? with
    | none => .error .indexOutOfBounds
    | some x => .ok x.2
  else
    match p.pts.getLast? with
    | none => .error .indexOutOfBounds
    | some y =>
      if y.1 ≤ s then .ok y.2
      else
        let i := lowerBound p.pts s
        if i = 0 then .error .indexOutOfBounds
        else
          match p.pts[i]?, p.pts[i - 1]? with
          | some a, some b => .ok (S.interp b.2 a.2 ((s - b.1) / (a.1 - b.1)))
          | _, _ => .error .indexOutOfBounds

/-- `eval` without time parameterization. -/
def Ipath.eval (S : Space K C) (p : Ipath K C) (s : K) : Except Err C := constrained p.cons s (p.impl S s)

/-- The loop copying the inner points in `impl_extract`: interpolated-path.cc:238-244. -/
def extLoop (g : K → K) (tmax : K) : Pts K C → Ipath K C → Except Err (Ipath K C)
  | [], _ => .error .indexOutOfBounds
  | x :: r, acc => if x.1 < tmax then extLoop g tmax r (acc.insert (g x.1) x.2) else .ok acc

/-- `impl_extract`: interpolated-path.cc:213-247. -/
def Ipath.extract (S : Space K C) (p : Ipath K C) (a b : K) : Except Err (Ipath K C) :=
  let rev := decide (b < a)
  let tmin := if rev then b else a
  let tmax := if rev then a else b
  let l := tmax - tmin
  match p.eval S a with
  | .error e => .error e
  | .ok q1 =>
    match p.eval S b with
    | .error e => .error e
    | .ok q2 =>
      extLoop (fun t => if rev then l - (t - tmin) else t - tmin) tmax (p.pts.drop (upperBound p.pts tmin))
        (Ipath.create q1 q2 (0, l) p.cons)

/-- `reverse`: interpolated-path.cc:249-264. -/
def Ipath.reverse (p : Ipath K C) : Except Err (Ipath K C) :=
  let l := p.pr.2 - p.pr.1
  match p.pts.head?, p.pts.getLast? with
  | some x, some y =>
    let r := Ipath.create y.2 x.2 (0, l) p.cons
    if 2 < p.pts.length then .ok (p.pts.dropLast.tail.reverse.foldl (fun acc x => acc.insert (l - x.1) x.2) r) else .ok r
  | _, _ => .error .indexOutOfBounds

/-- The loop of `impl_velocityBound`: interpolated-path.cc:203-210, `current` and `next` being the two first points of the list. -/
def velLoop {ι : Type} (t1 : K) : Pts K (ι → K) → (ι → K) → Except Err (ι → K)
  | [], _ => .error .indexOutOfBounds
  | [c], res => if c.1 < t1 then .error .indexOutOfBounds else .ok res
  | c :: n :: r, res =>
    if c.1 < t1 then velLoop t1 (n :: r) (fun i => max (res i) (|n.2 i - c.2 i| / (n.1 - c.1))) else .ok res

/-- `impl_velocityBound`: interpolated-path.cc:194-211. -/
def Ipath.velocityBound {ι : Type} (p : Ipath K (ι → K)) (t0 t1 : K) : Except Err (ι → K) :=
  velLoop t1 (p.pts.drop (lowerBound p.pts t0)) (fun _ => 0)

/-- `impl_derivative`: interpolated-path.cc:152-192, order at least 1. -/
def Ipath.derivative {ι : Type} (p : Ipath K (ι → K)) (s : K) (order : Nat) : Except Err (ι → K) :=
  if p.pr.1 = p.pr.2 then .ok fun _ => 0
  else
    match p.pts.getLast? with
    | none => .error .indexOutOfBounds
    | some y =>
      let n := p.pts.length
      let iA := if y.1 ≤ s then n - 1 else
        if lowerBound p.pts s = upperBound p.pts s ∧ lowerBound p.pts s = 0 then upperBound p.pts s + 1 else upperBound p.pts s
      let iB := if y.1 ≤ s then n - 1 - 1 else
        if lowerBound p.pts s = upperBound p.pts s ∧ lowerBound p.pts s ≠ 0 then lowerBound p.pts s - 1 else lowerBound p.pts s
      if y.1 ≤ s ∧ n - 1 = 0 then .error .indexOutOfBounds
      else
        match p.pts[iA]?, p.pts[iB]? with
        | some a, some b => if 1 < order then .ok fun _ => 0 else .ok fun i => 1 / (a.1 - b.1) * (a.2 i - b.2 i)
        | _, _ => .error .indexOutOfBounds

/-! ## Sorted lists of points -/

/-- Keys strictly increase. -/
def Sorted (l : Pts K C) : Prop := l.Pairwise (fun x y => x.1 < y.1)

theorem Sorted.lt {l : Pts K C} (h : Sorted l) {i j : Nat} (hj : j < l.length) (hij : i < j) :
    (l[i]'(hij.trans hj)).1 < (l[j]).1 := List.pairwise_iff_getElem.1 h i j (hij.trans hj) hj hij

theorem Sorted.lt_iff {l : Pts K C} (h : Sorted l) {i j : Nat} (hi : i < l.length) (hj : j < l.length) :
    (l[i]).1 < (l[j]).1 ↔ i < j := by
  refine ⟨fun hlt => ?_, fun hij => h.lt hj hij⟩
  by_contra hn
  rcases Nat.lt_or_eq_of_le (not_lt.1 hn) with hn | hn
  · exact absurd (h.lt hi hn) (not_lt.2 hlt.le)
  · subst hn; exact lt_irrefl _ hlt

/-- In a sorted list there is one point per key. -/
theorem Sorted.unique {l : Pts K C} (h : Sorted l) {x y : K × C} (hx : x ∈ l) (hy : y ∈ l) (hxy : x.1 = y.1) : x = y := by
  obtain ⟨i, hi, rfl⟩ := List.getElem_of_mem hx
  obtain ⟨j, hj, rfl⟩ := List.getElem_of_mem hy
  rcases lt_trichotomy i j with hij | hij | hij
  · exact absurd hxy (h.lt hj hij).ne
  · subst hij; rfl
  · exact absurd hxy (h.lt hi hij).ne'

theorem mem_insertPt {l : Pts K C} (h : Sorted l) (t : K) (q : C) (x : K × C) :
    x ∈ insertPt l t q ↔ x ∈ l ∨ (x = (t, q) ∧ ∀ y ∈ l, y.1 ≠ t) := by
  induction l with
  | nil => simp [insertPt]
  | cons a r ih =>
    have hr : Sorted r := (List.pairwise_cons.1 h).2
    have har := (List.pairwise_cons.1 h).1
    unfold insertPt
    split
    · next hlt =>
      have : ∀ y ∈ a :: r, y.1 ≠ t := by
        intro y hy
        rcases List.mem_cons.1 hy with rfl | hy
        · exact hlt.ne'
        · exact (hlt.trans (har y hy)).ne'
      rw [List.mem_cons]
      tauto
    · next hnlt =>
      split
      · next hlt =>
        rw [List.mem_cons, ih hr, List.mem_cons]
        simp only [List.mem_cons, ne_eq, forall_eq_or_imp]
        have := hlt.ne
        tauto
      · next hngt =>
        have he : a.1 = t := le_antisymm (not_lt.1 hnlt) (not_lt.1 hngt)
        simp only [List.mem_cons, ne_eq, forall_eq_or_imp]
        tauto

theorem sorted_insertPt {l : Pts K C} (h : Sorted l) (t : K) (q : C) : Sorted (insertPt l t q) := by
  induction l with
  | nil => exact List.pairwise_singleton _ _
  | cons a r ih =>
    have hr : Sorted r := (List.pairwise_cons.1 h).2
    have har := (List.pairwise_cons.1 h).1
    unfold insertPt
    split
    · next hlt =>
      refine List.pairwise_cons.2 ⟨fun y hy => ?_, h⟩
      rcases List.mem_cons.1 hy with rfl | hy
      · exact hlt
      · exact hlt.trans (har y hy)
    · split
      · next hlt =>
        refine List.pairwise_cons.2 ⟨fun y hy => ?_, ih hr⟩
        rcases (mem_insertPt hr t q y).1 hy with hy | hy
        · exact har y hy
        · rw [hy.1]; exact hlt
      · exact h

/-- A key is present after insertion. -/
theorem key_insertPt {l : Pts K C} (h : Sorted l) (t : K) (q : C) : ∃ q', (t, q') ∈ insertPt l t q := by
  by_cases hk : ∀ y ∈ l, y.1 ≠ t
  · exact ⟨q, (mem_insertPt h t q _).2 (.inr ⟨rfl, hk⟩)⟩
  · push Not at hk
    obtain ⟨y, hy, he⟩ := hk
    exact ⟨y.2, (mem_insertPt h t q _).2 (.inl (he ▸ hy))⟩

theorem exists_first (l : Pts K C) (P : K × C → Prop) (h : ∃ x ∈ l, P x) :
    ∃ (j : Nat) (hj : j < l.length), P l[j] ∧ ∀ k (hk : k < j), ¬ P (l[k]'(hk.trans hj)) := by
  induction l with
  | nil => obtain ⟨x, hx, _⟩ := h; simp at hx
  | cons a r ih =>
    by_cases ha : P a
    · exact ⟨0, by simp, ha, fun k hk => absurd hk (Nat.not_lt_zero _)⟩
    · obtain ⟨x, hx, hP⟩ := h
      rcases List.mem_cons.1 hx with rfl | hx
      · exact absurd hP ha
      · obtain ⟨j, hj, h1, h2⟩ := ih ⟨x, hx, hP⟩
        refine ⟨j + 1, by simpa using hj, h1, fun k hk => ?_⟩
        cases k with
        | zero => exact ha
        | succ k => exact h2 k (by omega)

theorem lowerBound_eq {l : Pts K C} (h : Sorted l) {i : Nat} (hi : i + 1 < l.length) {s : K} (h1 : (l[i]).1 < s) (h2 : s ≤ (l[i + 1]).1) :
    lowerBound l s = i + 1 := by
  refine (List.findIdx_eq hi).2 ⟨by simpa using h2, fun j hj => ?_⟩
  simp only [not_lt, decide_eq_false_iff_not, not_le]
  rcases Nat.lt_or_eq_of_le (Nat.lt_succ_iff.1 hj) with hj | hj
  · exact (h.lt (by omega) hj).trans h1
  · subst hj; exact h1

theorem lowerBound_key {l : Pts K C} (h : Sorted l) {i : Nat} (hi : i < l.length) : lowerBound l (l[i]).1 = i := by
  refine (List.findIdx_eq hi).2 ⟨by simp, fun j hj => ?_⟩
  simpa using h.lt hi hj

theorem upperBound_eq {l : Pts K C} (h : Sorted l) {i : Nat} (hi : i + 1 < l.length) {s : K} (h1 : (l[i]).1 ≤ s) (h2 : s < (l[i + 1]).1) :
    upperBound l s = i + 1 := by
  refine (List.findIdx_eq hi).2 ⟨by simpa using h2, fun j hj => ?_⟩
  simp only [decide_eq_false_iff_not, not_lt]
  rcases Nat.lt_or_eq_of_le (Nat.lt_succ_iff.1 hj) with hj | hj
  · exact (h.lt (by omega) hj).le.trans h1
  · subst hj; exact h1

/-- No way point has its time strictly between `u` and `v`. -/
def NoKey (l : Pts K C) (u v : K) : Prop := ∀ x ∈ l, ¬ (u < x.1 ∧ x.1 < v)

theorem Sorted.consec {l : Pts K C} (h : Sorted l) {x y : K × C} (hx : x ∈ l) (hy : y ∈ l) (hxy : x.1 < y.1) (hn : NoKey l x.1 y.1) :
    ∃ (i : Nat) (hi : i + 1 < l.length), l[i] = x ∧ l[i + 1] = y := by
  obtain ⟨i, hi, rfl⟩ := List.getElem_of_mem hx
  obtain ⟨j, hj, rfl⟩ := List.getElem_of_mem hy
  have hij := (h.lt_iff hi hj).1 hxy
  have hi1 : i + 1 < l.length := by omega
  have : i + 1 = j := by
    by_contra hne
    exact hn _ (List.getElem_mem hi1) ⟨h.lt hi1 (Nat.lt_succ_self i), h.lt hj (by omega)⟩
  subst this
  exact ⟨i, hi1, rfl, rfl⟩

theorem Sorted.consec_noKey {l : Pts K C} (h : Sorted l) {i : Nat} (hi : i + 1 < l.length) : NoKey l (l[i]).1 (l[i + 1]).1 := by
  rintro z hz ⟨h1, h2⟩
  obtain ⟨j, hj, rfl⟩ := List.getElem_of_mem hz
  have h1 := (h.lt_iff (by omega) hj).1 h1
  have h2 := (h.lt_iff hj hi).1 h2
  omega

/-- The way points of a path built by its constructor and `insert`: sorted, inside the range, with points at both ends. -/
structure GoodPts (p : Ipath K C) : Prop where
  le : p.pr.1 ≤ p.pr.2
  sorted : Sorted p.pts
  range : ∀ x ∈ p.pts, p.pr.1 ≤ x.1 ∧ x.1 ≤ p.pr.2
  first : ∃ q, (p.pr.1, q) ∈ p.pts
  last : ∃ q, (p.pr.2, q) ∈ p.pts

theorem GoodPts.ne {p : Ipath K C} (h : GoodPts p) : p.pts ≠ [] := by
  obtain ⟨q, hq⟩ := h.first
  exact List.ne_nil_of_mem hq

theorem GoodPts.head {p : Ipath K C} (h : GoodPts p) {q : C} (hq : (p.pr.1, q) ∈ p.pts) : p.pts.head? = some (p.pr.1, q) := by
  rw [List.head?_eq_some_head h.ne]
  congr 1
  refine h.sorted.unique (List.head_mem _) hq ?_
  refine le_antisymm ?_ (h.range _ (List.head_mem _)).1
  obtain ⟨i, hi, he⟩ := List.getElem_of_mem hq
  have e0 : p.pts.head h.ne = p.pts[0]'(by omega) := List.head_eq_getElem _
  rcases Nat.eq_zero_or_pos i with hi0 | hi0
  · subst hi0; rw [e0, he]
  · have := h.sorted.lt hi hi0
    rw [he] at this
    rw [e0]; exact this.le

theorem GoodPts.getLast {p : Ipath K C} (h : GoodPts p) {q : C} (hq : (p.pr.2, q) ∈ p.pts) : p.pts.getLast? = some (p.pr.2, q) := by
  rw [List.getLast?_eq_some_getLast h.ne]
  congr 1
  refine h.sorted.unique (List.getLast_mem _) hq ?_
  refine le_antisymm (h.range _ (List.getLast_mem _)).2 ?_
  obtain ⟨i, hi, he⟩ := List.getElem_of_mem hq
  have e0 : p.pts.getLast h.ne = p.pts[p.pts.length - 1]'(by omega) := List.getLast_eq_getElem _
  rcases Nat.lt_or_eq_of_le (Nat.le_pred_of_lt hi) with hi0 | hi0
  · have := h.sorted.lt (i := i) (j := p.pts.length - 1) (by omega) hi0
    rw [he] at this
    rw [e0]; exact this.le
  · have hi0 : i = p.pts.length - 1 := hi0
    subst hi0; rw [e0, he]

/-! ## Evaluation -/

/-- Value between two neighbouring way points. -/
theorem Ipath.impl_seg (S : Space K C) {p : Ipath K C} (h : GoodPts p) {x y : K × C} (hx : x ∈ p.pts) (hy : y ∈ p.pts) (hxy : x.1 < y.1)
    (hn : NoKey p.pts x.1 y.1) (s : K) (h1 : x.1 < s) (h2 : s ≤ y.1) :
    p.impl S s = .ok (S.interp x.2 y.2 ((s - x.1) / (y.1 - x.1))) := by
  obtain ⟨i, hi, rfl, rfl⟩ := h.sorted.consec hx hy hxy hn
  have r1 := (h.range _ hx).1
  have r2 := (h.range _ hy).2
  unfold Ipath.impl
  rw [if_neg (by rintro (h' | h') <;> linarith)]
  obtain ⟨qe, hqe⟩ := h.last
  rw [h.getLast hqe]
  simp only
  by_cases hs : p.pr.2 ≤ s
  · have hs2 : (p.pts[i + 1]).1 = p.pr.2 := le_antisymm r2 (hs.trans h2)
    have hss : s = (p.pts[i + 1]).1 := le_antisymm h2 (hs2 ▸ hs)
    rw [if_pos hs, hss, div_self (sub_ne_zero.2 hxy.ne'), S.one, show qe = (p.pts[i + 1]).2 from congrArg Prod.snd (h.sorted.unique hqe hy hs2.symm)]
  · rw [if_neg hs, lowerBound_eq h.sorted hi h1 h2]
    simp [List.getElem?_eq_getElem hi, List.getElem?_eq_getElem (Nat.lt_of_succ_lt hi)]

/-- Value at a way point. -/
theorem Ipath.impl_key (S : Space K C) {p : Ipath K C} (h : GoodPts p) {x : K × C} (hx : x ∈ p.pts) : p.impl S x.1 = .ok x.2 := by
  by_cases h0 : x.1 = p.pr.1 ∨ p.pr.2 - p.pr.1 = 0
  · unfold Ipath.impl
    rw [if_pos h0]
    have he : x.1 = p.pr.1 := by
      rcases h0 with h0 | h0
      · exact h0
      · have := h.range x hx
        exact le_antisymm (this.2.trans (by linarith)) this.1
    rw [h.head (he ▸ hx : (p.pr.1, x.2) ∈ p.pts)]
  · push Not at h0
    obtain ⟨i, hi, rfl⟩ := List.getElem_of_mem hx
    have hi0 : i ≠ 0 := by
      rintro rfl
      obtain ⟨q, hq⟩ := h.first
      obtain ⟨j, hj, he⟩ := List.getElem_of_mem hq
      rcases Nat.eq_zero_or_pos j with hj0 | hj0
      · subst hj0; rw [he] at h0; exact h0.1 rfl
      · have := h.sorted.lt hj hj0
        rw [he] at this
        exact absurd this (not_lt.2 (h.range _ hx).1)
    obtain ⟨k, rfl⟩ := Nat.exists_eq_succ_of_ne_zero hi0
    have hlt := h.sorted.lt hi (Nat.lt_succ_self k)
    rw [Ipath.impl_seg S h (List.getElem_mem (Nat.lt_of_succ_lt hi)) hx hlt (h.sorted.consec_noKey hi) _ hlt (le_refl _),
      div_self (sub_ne_zero.2 hlt.ne'), S.one]

/-- Value between two neighbouring way points, both ends included. -/
theorem Ipath.impl_seg' (S : Space K C) {p : Ipath K C} (h : GoodPts p) {x y : K × C} (hx : x ∈ p.pts) (hy : y ∈ p.pts) (hxy : x.1 < y.1)
    (hn : NoKey p.pts x.1 y.1) (s : K) (h1 : x.1 ≤ s) (h2 : s ≤ y.1) :
    p.impl S s = .ok (S.interp x.2 y.2 ((s - x.1) / (y.1 - x.1))) := by
  rcases lt_or_eq_of_le h1 with h1 | h1
  · exact Ipath.impl_seg S h hx hy hxy hn s h1 h2
  · rw [← h1, Ipath.impl_key S h hx, sub_self, zero_div, S.zero]

/-- Two times without way point strictly between them are in the same segment. -/
theorem GoodPts.segment {p : Ipath K C} (h : GoodPts p) (c d : K) (hc : p.pr.1 ≤ c) (hcd : c < d) (hd : d ≤ p.pr.2) (hn : NoKey p.pts c d) :
    ∃ x ∈ p.pts, ∃ y ∈ p.pts, x.1 < y.1 ∧ NoKey p.pts x.1 y.1 ∧ x.1 ≤ c ∧ d ≤ y.1 := by
  obtain ⟨q, hq⟩ := h.last
  obtain ⟨j, hj, hjd, hbefore⟩ := exists_first p.pts (fun x => d ≤ x.1) ⟨_, hq, hd⟩
  rcases Nat.eq_zero_or_pos j with hj0 | hj0
  · subst hj0
    obtain ⟨q0, hq0⟩ := h.first
    have := h.head hq0
    rw [List.head?_eq_getElem?, List.getElem?_eq_getElem hj, Option.some.injEq] at this
    rw [this] at hjd
    exact absurd (hjd.trans hc) (not_le.2 hcd)
  · obtain ⟨k, rfl⟩ := Nat.exists_eq_succ_of_ne_zero hj0.ne'
    have hk := hbefore k (Nat.lt_succ_self k)
    rw [not_le] at hk
    refine ⟨_, List.getElem_mem (Nat.lt_of_succ_lt hj), _, List.getElem_mem hj, h.sorted.lt hj (Nat.lt_succ_self k), h.sorted.consec_noKey hj,
      ?_, hjd⟩
    by_contra hlt
    exact hn _ (List.getElem_mem (Nat.lt_of_succ_lt hj)) ⟨not_le.1 hlt, hk⟩

/-- Evaluation is defined on the whole range. -/
theorem Ipath.impl_defined (S : Space K C) {p : Ipath K C} (h : GoodPts p) (s : K) (h1 : p.pr.1 ≤ s) (h2 : s ≤ p.pr.2) :
    ∃ q, p.impl S s = .ok q := by
  by_cases hk : ∃ x ∈ p.pts, x.1 = s
  · obtain ⟨x, hx, rfl⟩ := hk
    exact ⟨_, Ipath.impl_key S h hx⟩
  · push Not at hk
    obtain ⟨q0, hq0⟩ := h.first
    obtain ⟨q1, hq1⟩ := h.last
    have e2 := hk _ hq1
    have hlt : s < p.pr.2 := lt_of_le_of_ne h2 (Ne.symm e2)
    -- the points after `s`
    obtain ⟨j, hj, hjd, hbefore⟩ := exists_first p.pts (fun x => s < x.1) ⟨_, hq1, hlt⟩
    rcases Nat.eq_zero_or_pos j with hj0 | hj0
    · subst hj0
      have := h.head hq0
      rw [List.head?_eq_getElem?, List.getElem?_eq_getElem hj, Option.some.injEq] at this
      rw [this] at hjd
      exact absurd hjd (not_lt.2 h1)
    · obtain ⟨k, rfl⟩ := Nat.exists_eq_succ_of_ne_zero hj0.ne'
      have hks := hbefore k (Nat.lt_succ_self k)
      rw [not_lt] at hks
      exact ⟨_, Ipath.impl_seg' S h (List.getElem_mem (Nat.lt_of_succ_lt hj)) (List.getElem_mem hj) (h.sorted.lt hj (Nat.lt_succ_self k))
        (h.sorted.consec_noKey hj) s hks hjd.le⟩

/-! ## Constructors keep the way points good -/

theorem sorted_nil : Sorted ([] : Pts K C) := List.Pairwise.nil

theorem Ipath.create_good (a b : C) (tr : K × K) (c : Option (Cst K C)) (h : tr.1 ≤ tr.2) : GoodPts (Ipath.create a b tr c) := by
  have s1 : Sorted (insertPt ([] : Pts K C) tr.1 a) := sorted_insertPt sorted_nil _ _
  have m1 : ∀ x, x ∈ insertPt ([] : Pts K C) tr.1 a ↔ x = (tr.1, a) := by simp [insertPt]
  refine ⟨h, sorted_insertPt s1 _ _, fun x hx => ?_, ⟨a, (mem_insertPt s1 _ _ _).2 (.inl ((m1 _).2 rfl))⟩, key_insertPt s1 _ _⟩
  rcases (mem_insertPt s1 _ _ _).1 hx with hx | hx
  · rw [(m1 x).1 hx]; exact ⟨le_refl _, h⟩
  · rw [hx.1]; exact ⟨h, le_refl _⟩

theorem GoodPts.insert {p : Ipath K C} (h : GoodPts p) (t : K) (q : C) (ht : p.pr.1 ≤ t ∧ t ≤ p.pr.2) : GoodPts (p.insert t q) := by
  refine ⟨h.le, sorted_insertPt h.sorted _ _, fun x hx => ?_, ?_, ?_⟩
  · rcases (mem_insertPt h.sorted _ _ _).1 hx with hx | hx
    · exact h.range x hx
    · rw [hx.1]; exact ht
  · obtain ⟨q0, h0⟩ := h.first
    exact ⟨q0, (mem_insertPt h.sorted _ _ _).2 (.inl h0)⟩
  · obtain ⟨q0, h0⟩ := h.last
    exact ⟨q0, (mem_insertPt h.sorted _ _ _).2 (.inl h0)⟩

/-- Insertion of a list of points. -/
def Ipath.insertAll (p : Ipath K C) (ops : List (K × C)) : Ipath K C := ops.foldl (fun acc x => acc.insert x.1 x.2) p

theorem Ipath.insertAll_pr (p : Ipath K C) (ops : List (K × C)) : (p.insertAll ops).pr = p.pr := by
  induction ops generalizing p with
  | nil => rfl
  | cons x r ih => exact ih _

theorem Ipath.insertAll_cons (p : Ipath K C) (ops : List (K × C)) : (p.insertAll ops).cons = p.cons := by
  induction ops generalizing p with
  | nil => rfl
  | cons x r ih => exact ih _

theorem GoodPts.insertAll {p : Ipath K C} (h : GoodPts p) (ops : List (K × C)) (ho : ∀ x ∈ ops, p.pr.1 ≤ x.1 ∧ x.1 ≤ p.pr.2) :
    GoodPts (p.insertAll ops) := by
  induction ops generalizing p with
  | nil => exact h
  | cons x r ih => exact ih (h.insert x.1 x.2 (ho x List.mem_cons_self)) fun y hy => ho y (List.mem_cons_of_mem _ hy)

/-- The way points after a sequence of insertions: those already there, and the first insertion at each new time. -/
theorem mem_insertAll {p : Ipath K C} (h : Sorted p.pts) (ops : List (K × C)) (x : K × C) :
    x ∈ (p.insertAll ops).pts ↔ x ∈ p.pts ∨ ((∀ y ∈ p.pts, y.1 ≠ x.1) ∧ ops.find? (fun y => y.1 = x.1) = some x) := by
  induction ops generalizing p with
  | nil => simp [Ipath.insertAll]
  | cons a r ih =>
    have := ih (p := p.insert a.1 a.2) (sorted_insertPt h _ _)
    rw [show (p.insertAll (a :: r)).pts = ((p.insert a.1 a.2).insertAll r).pts from rfl, this]
    simp only [Ipath.insert, mem_insertPt h, List.find?_cons]
    by_cases ha : a.1 = x.1
    · simp only [ha, decide_true, Option.some.injEq]
      constructor
      · rintro ((h' | h') | h')
        · exact .inl h'
        · exact .inr ⟨h'.2, by rw [h'.1, ← ha]⟩
        · by_cases hk : ∀ y ∈ p.pts, y.1 ≠ x.1
          · exact absurd ha (h'.1 a (.inr ⟨by rw [← ha], fun y hy => by rw [← ha] at hk; exact ha ▸ hk y hy⟩))
          · push Not at hk
            obtain ⟨y, hy, he⟩ := hk
            exact absurd he (h'.1 y (.inl hy))
      · rintro (h' | h')
        · exact .inl (.inl h')
        · exact .inl (.inr ⟨by rw [← h'.2], h'.1⟩)
    · simp only [ha, decide_false]
      constructor
      · rintro ((h' | h') | h')
        · exact .inl h'
        · exact absurd (by rw [h'.1]) ha
        · exact .inr ⟨fun y hy => h'.1 y (.inl hy), h'.2⟩
      · rintro (h' | h')
        · exact .inl (.inl h')
        · refine .inr ⟨?_, h'.2⟩
          rintro y (hy | hy)
          · exact h'.1 y hy
          · rw [hy.1]; exact ha

end Verif.PathV
