import Verif.SplineOpt.Params
set_option linter.unusedSectionVars false

/-!
# Constraints of continuity of vectors of splines (C89)

The rows only read control points; in the theorem of this file configurations are vectors (`RnxSOnLieGroupMap` without rotations), so that the integration
from the base is the sum, see `Groups.lean` for other spaces.  Sets of degrees of freedom
(`RowBlockIndices`) are lists of indices.
-/
namespace Verif.SplineOpt
open Verif.Spline

/-- A spline of a vector space. -/
abbrev VSpl := Spl (ℕ → ℝ)

variable {Q : Type}

/-- Integration in a vector space. -/
def integ (b v : ℕ → ℝ) : ℕ → ℝ := fun d => b d + v d

/-- `Spline::basisFunctionDerivative`: src/path/spline.cc:313-325. -/
noncomputable def bf (s : Spl Q) (k : ℕ) (u : ℝ) (i : ℕ) : ℝ := if s.s1 - s.s0 = 0 then 0 else basis s.n k u i / (s.s1 - s.s0) ^ k

/-- Row of degree of freedom `d` of `setContinuityConstraint`: spline-gradient-based-abstract.cc:91-122; `L` and `R` are the splines with the
values of their basis functions. -/
noncomputable def contRow (m nb col : ℕ) (L R : Option (Spl Q × (ℕ → ℝ))) (czero : Bool) (d : ℕ) : Row :=
  let JL := match L with
    | some (_, B) => (List.range nb).map fun i => (col + (i * m + d), -B i)
    | none => []
  let c := match L with
    | some _ => col + m * nb
    | none => col
  let JR := match R with
    | some (_, B) => (List.range nb).map fun i => (c + (i * m + d), B i)
    | none => []
  let bL := match L with
    | some (s, B) => if czero then ∑ i ∈ Finset.range nb, s.P i d * -B i else 0
    | none => 0
  let bR := match R with
    | some (s, B) => if czero then ∑ i ∈ Finset.range nb, s.P i d * B i else 0
    | none => 0
  ⟨JL ++ JR, bL + bR⟩

/-- `rbis[i]`, union of the active degrees of freedom of two consecutive splines: spline-gradient-based-abstract.cc:280-291. -/
def union (m : ℕ) (a b : List ℕ) : List ℕ := (List.range m).filter fun d => decide (d ∈ a ∨ d ∈ b)

/-- Continuity between consecutive splines, order `k`: spline-gradient-based-abstract.cc:314-325; `col` is `indexParam`. -/
noncomputable def midRows (m nb k : ℕ) : ℕ → List (Spl Q × List ℕ) → List Row
  | col, (s, a) :: (t, b) :: l =>
    (union m a b).map (contRow m nb col (some (s, bf s k 1)) (some (t, bf t k 0)) (k == 0)) ++ midRows m nb k (col + m * nb) ((t, b) :: l)
  | _, _ => []

/-- The rows of order `k`: spline-gradient-based-abstract.cc:303-334; each spline comes with its active degrees of freedom (`sods`). -/
noncomputable def orderRows (m nb : ℕ) (l : List (Spl Q × List ℕ)) (k : ℕ) : List Row :=
  match l.head?, l.getLast? with
  | some (s, a), some (t, b) =>
    a.map (contRow m nb 0 none (some (s, bf s k 0)) (k == 0)) ++ midRows m nb k 0 l ++
      b.map (contRow m nb ((l.length - 1) * (m * nb)) (some (t, bf t k 1)) none (k == 0))
  | _, _ => []

/-- `addContinuityConstraints`: spline-gradient-based-abstract.cc:262-336. -/
noncomputable def continuityRows (m nb maxOrder : ℕ) (l : List (Spl Q × List ℕ)) : List Row :=
  (List.range (maxOrder + 1)).flatMap (orderRows m nb l)

/-- `addProblemConstraintOnPath`: src/path-optimization/spline-gradient-based.cc:192-240, for spline `j`: the degrees of freedom that are not active
keep their values. -/
def fixRows (m nb j : ℕ) (s : Spl Q) (active : List ℕ) : List Row :=
  (List.range nb).flatMap fun k => ((List.range m).filter fun d => decide (d ∉ active)).map fun d => ⟨[(j * (m * nb) + (k * m + d), 1)], s.P k d⟩

/-- `addProblemConstraints`: spline-gradient-based.cc:182-190. -/
def problemRows (m nb : ℕ) : ℕ → List (Spl Q × List ℕ) → List Row
  | _, [] => []
  | j, (s, a) :: l => fixRows m nb j s a ++ problemRows m nb (j + 1) l

/-! ## Specification -/

/-- The rows are satisfied by splines. -/
def Sat (m nb : ℕ) (rows : List Row) (splines : List (Spl Q)) : Prop := ∀ r ∈ rows, r.Holds (concat m nb splines)

/-- Derivative of order `k` at the beginning and at the end of a spline. -/
noncomputable def derAt (s : Spl Q) (k : ℕ) (u : ℝ) (d : ℕ) : ℝ := ∑ i ∈ Finset.range (s.n + 1), s.P i d * bf s k u i

/-- The paths of a vector of splines follow each other, with the same derivatives up to order `K`, which are null at both ends. -/
structure Smooth (m K : ℕ) (splines : List VSpl) : Prop where
  mid : ∀ j s t, splines[j]? = some s → splines[j + 1]? = some t → ∀ d < m, s.compute integ s.s1 d = t.compute integ t.s0 d ∧
    ∀ k, 1 ≤ k → k ≤ K → s.derivative s.s1 k d = t.derivative t.s0 k d
  first : ∀ s, splines.head? = some s → ∀ d < m, ∀ k, 1 ≤ k → k ≤ K → s.derivative s.s0 k d = some 0
  last : ∀ s, splines.getLast? = some s → ∀ d < m, ∀ k, 1 ≤ k → k ≤ K → s.derivative s.s1 k d = some 0

/-- Same first and last configurations. -/
structure SameEnds (m : ℕ) (a b : List VSpl) : Prop where
  first : ∀ s t, a.head? = some s → b.head? = some t → ∀ d < m, s.compute integ s.s0 d = t.compute integ t.s0 d
  last : ∀ s t, a.getLast? = some s → b.getLast? = some t → ∀ d < m, s.compute integ s.s1 d = t.compute integ t.s1 d

/-- Splines of degree `n` with a positive duration; active degrees of freedom are some of those of the robot. -/
structure Valid (m n : ℕ) (l : List (Spl Q × List ℕ)) : Prop where
  deg : ∀ x ∈ l, x.1.n = n
  range : ∀ x ∈ l, x.1.s0 < x.1.s1
  active : ∀ x ∈ l, ∀ d ∈ x.2, d < m

/-! ## Proofs -/

theorem derAt_derivative {s : Spl Q} (h : s.s0 < s.s1) {k : ℕ} (hk : k ≤ 2 * (s.n + 1)) (d : ℕ) :
    s.derivative s.s0 k d = some (derAt s k 0 d) ∧ s.derivative s.s1 k d = some (derAt s k 1 d) := by
  have hL : s.s1 - s.s0 ≠ 0 := by intro h0; linarith
  unfold Spl.derivative derAt bf
  simp only [if_neg hL]
  rw [if_neg (by omega), if_neg (by omega), sub_self, zero_div, div_self hL]
  exact ⟨rfl, rfl⟩

theorem derAt_compute {s : VSpl} (h : s.s0 < s.s1) (d : ℕ) :
    s.compute integ s.s0 d = s.base d + derAt s 0 0 d ∧ s.compute integ s.s1 d = s.base d + derAt s 0 1 d := by
  have hL : 0 < s.s1 - s.s0 := by linarith
  have e : ∀ u, derAt s 0 u d = s.velocity u d := by
    intro u
    unfold derAt bf Spl.velocity
    simp only [if_neg hL.ne', pow_zero, div_one]
  unfold Spl.compute integ
  rw [param_eq s h s.s0 ⟨le_rfl, h.le⟩, param_eq s h s.s1 ⟨h.le, le_rfl⟩, sub_self, zero_div, div_self hL.ne', e, e]
  exact ⟨rfl, rfl⟩

theorem bf_like {s t : Spl Q} (h : Like s t) (k : ℕ) (u : ℝ) : bf s k u = bf t k u := by
  funext i; unfold bf; rw [h.1, h.2.2.1, h.2.2.2]

/-- Product of a block of a row. -/
theorem dot_block {m nb j d : ℕ} {splines : List (Spl Q)} {s : Spl Q} (hj : splines[j]? = some s) (hd : d < m) (B : ℕ → ℝ) :
    dot ((List.range nb).map fun i => (j * (m * nb) + (i * m + d), B i)) (concat m nb splines) = ∑ i ∈ Finset.range nb, s.P i d * B i := by
  rw [dot_map_range]
  refine Finset.sum_congr rfl fun i hi => ?_
  rw [concat_at hj (Finset.mem_range.1 hi) hd, mul_comm]

theorem contRow_start {m nb d : ℕ} {splines : List (Spl Q)} {s s' : Spl Q} (hj : splines[0]? = some s') (hd : d < m) (B : ℕ → ℝ) (cz : Bool) :
    (contRow m nb 0 none (some (s, B)) cz d).Holds (concat m nb splines) ↔
      ∑ i ∈ Finset.range nb, s'.P i d * B i = if cz then ∑ i ∈ Finset.range nb, s.P i d * B i else 0 := by
  unfold Row.Holds contRow
  simp only [List.nil_append, zero_add]
  have := dot_block (nb := nb) hj hd B
  simp only [zero_mul, zero_add] at this
  rw [this]

theorem contRow_end {m nb j d : ℕ} {splines : List (Spl Q)} {s s' : Spl Q} (hj : splines[j]? = some s') (hd : d < m) (B : ℕ → ℝ) (cz : Bool) :
    (contRow m nb (j * (m * nb)) (some (s, B)) none cz d).Holds (concat m nb splines) ↔
      ∑ i ∈ Finset.range nb, s'.P i d * B i = if cz then ∑ i ∈ Finset.range nb, s.P i d * B i else 0 := by
  unfold Row.Holds contRow
  simp only [List.append_nil, add_zero]
  rw [dot_block (nb := nb) hj hd (fun i => -B i)]
  simp only [mul_neg, Finset.sum_neg_distrib]
  cases cz <;> simp

theorem contRow_mid {m nb j d : ℕ} {splines : List (Spl Q)} {s t s' t' : Spl Q} (hj : splines[j]? = some s') (hj' : splines[j + 1]? = some t') (hd : d < m)
    (B B' : ℕ → ℝ) (cz : Bool) :
    (contRow m nb (j * (m * nb)) (some (s, B)) (some (t, B')) cz d).Holds (concat m nb splines) ↔
      (∑ i ∈ Finset.range nb, t'.P i d * B' i) - ∑ i ∈ Finset.range nb, s'.P i d * B i =
        if cz then (∑ i ∈ Finset.range nb, t.P i d * B' i) - ∑ i ∈ Finset.range nb, s.P i d * B i else 0 := by
  unfold Row.Holds contRow
  simp only
  rw [dot_append, dot_block (nb := nb) hj hd (fun i => -B i), show j * (m * nb) + m * nb = (j + 1) * (m * nb) by ring, dot_block (nb := nb) hj' hd B']
  simp only [mul_neg, Finset.sum_neg_distrib]
  cases cz
  · simp only [Bool.false_eq_true, if_false, add_zero]
    rw [neg_add_eq_sub]
  · simp only [if_true]
    rw [neg_add_eq_sub, neg_add_eq_sub]

theorem mem_midRows {m nb k : ℕ} {l : List (Spl Q × List ℕ)} : ∀ {j0 j : ℕ} {s t : Spl Q} {a b : List ℕ}, l[j]? = some (s, a) → l[j + 1]? = some (t, b) →
    ∀ d ∈ union m a b, contRow m nb ((j0 + j) * (m * nb)) (some (s, bf s k 1)) (some (t, bf t k 0)) (k == 0) d ∈ midRows m nb k (j0 * (m * nb)) l := by
  induction l with
  | nil => intro j0 j s t a b h; simp at h
  | cons x l ih =>
    intro j0 j s t a b h h' d hd
    cases l with
    | nil => simp at h'
    | cons y l =>
      obtain ⟨xs, xa⟩ := x
      obtain ⟨ys, ya⟩ := y
      rw [midRows]
      cases j with
      | zero =>
        simp only [List.getElem?_cons_zero, Option.some.injEq, Prod.mk.injEq, List.getElem?_cons_succ, zero_add] at h h'
        obtain ⟨rfl, rfl⟩ := h
        obtain ⟨rfl, rfl⟩ := h'
        exact List.mem_append_left _ (List.mem_map_of_mem hd)
      | succ j =>
        refine List.mem_append_right _ ?_
        have := ih (j0 := j0 + 1) (j := j) (by simpa using h) (by simpa using h') d hd
        rw [show (j0 + 1) * (m * nb) = j0 * (m * nb) + m * nb by ring, show j0 + 1 + j = j0 + (j + 1) by omega] at this
        exact this

theorem mem_problemRows {m nb : ℕ} {l : List (Spl Q × List ℕ)} : ∀ {j0 j : ℕ} {s : Spl Q} {a : List ℕ}, l[j]? = some (s, a) →
    ∀ k d, k < nb → d < m → d ∉ a → (⟨[((j0 + j) * (m * nb) + (k * m + d), 1)], s.P k d⟩ : Row) ∈ problemRows m nb j0 l := by
  induction l with
  | nil => intro j0 j s a h; simp at h
  | cons x l ih =>
    intro j0 j s a h k d hk hd ha
    obtain ⟨xs, xa⟩ := x
    rw [problemRows]
    cases j with
    | zero =>
      simp only [List.getElem?_cons_zero, Option.some.injEq, Prod.mk.injEq] at h
      obtain ⟨rfl, rfl⟩ := h
      refine List.mem_append_left _ ?_
      unfold fixRows
      refine List.mem_flatMap.2 ⟨k, List.mem_range.2 hk, List.mem_map.2 ⟨d, List.mem_filter.2 ⟨List.mem_range.2 hd, decide_eq_true ha⟩, rfl⟩⟩
    | succ j =>
      refine List.mem_append_right _ ?_
      have := ih (j0 := j0 + 1) (j := j) (by simpa using h) k d hk hd ha
      rw [show j0 + 1 + j = j0 + (j + 1) by omega] at this
      exact this

theorem fixRow_holds {m nb j k d : ℕ} {splines : List (Spl Q)} {s' : Spl Q} {v : ℝ} (hj : splines[j]? = some s') (hk : k < nb) (hd : d < m) :
    (⟨[(j * (m * nb) + (k * m + d), 1)], v⟩ : Row).Holds (concat m nb splines) ↔ s'.P k d = v := by
  unfold Row.Holds dot
  simp [concat_at hj hk hd]

theorem midRows_mem {m nb k : ℕ} {l : List (Spl Q × List ℕ)} : ∀ {j0 : ℕ} {r : Row}, r ∈ midRows m nb k (j0 * (m * nb)) l →
    ∃ j s t a b d, l[j]? = some (s, a) ∧ l[j + 1]? = some (t, b) ∧ d ∈ union m a b ∧
      r = contRow m nb ((j0 + j) * (m * nb)) (some (s, bf s k 1)) (some (t, bf t k 0)) (k == 0) d := by
  induction l with
  | nil => intro j0 r h; simp [midRows] at h
  | cons x l ih =>
    intro j0 r h
    cases l with
    | nil => simp [midRows] at h
    | cons y l =>
      obtain ⟨xs, xa⟩ := x
      obtain ⟨ys, ya⟩ := y
      rw [midRows] at h
      rcases List.mem_append.1 h with h | h
      · obtain ⟨d, hd, rfl⟩ := List.mem_map.1 h
        exact ⟨0, xs, ys, xa, ya, d, rfl, rfl, hd, rfl⟩
      · rw [show j0 * (m * nb) + m * nb = (j0 + 1) * (m * nb) by ring] at h
        obtain ⟨j, s, t, a, b, d, h1, h2, h3, h4⟩ := ih h
        refine ⟨j + 1, s, t, a, b, d, by simpa using h1, by simpa using h2, h3, ?_⟩
        rw [h4, show j0 + 1 + j = j0 + (j + 1) by omega]

theorem problemRows_mem {m nb : ℕ} {l : List (Spl Q × List ℕ)} : ∀ {j0 : ℕ} {r : Row}, r ∈ problemRows m nb j0 l →
    ∃ j s a k d, l[j]? = some (s, a) ∧ k < nb ∧ d < m ∧ r = ⟨[((j0 + j) * (m * nb) + (k * m + d), 1)], s.P k d⟩ := by
  induction l with
  | nil => intro j0 r h; simp [problemRows] at h
  | cons x l ih =>
    intro j0 r h
    obtain ⟨xs, xa⟩ := x
    rw [problemRows] at h
    rcases List.mem_append.1 h with h | h
    · unfold fixRows at h
      obtain ⟨k, hk, h⟩ := List.mem_flatMap.1 h
      obtain ⟨d, hd, rfl⟩ := List.mem_map.1 h
      exact ⟨0, xs, xa, k, d, rfl, List.mem_range.1 hk, List.mem_range.1 (List.mem_filter.1 hd).1, rfl⟩
    · obtain ⟨j, s, a, k, d, h1, h2, h3, h4⟩ := ih h
      refine ⟨j + 1, s, a, k, d, by simpa using h1, h2, h3, ?_⟩
      rw [h4, show j0 + 1 + j = j0 + (j + 1) by omega]

theorem mem_union {m : ℕ} {a b : List ℕ} {d : ℕ} : d ∈ union m a b ↔ d < m ∧ (d ∈ a ∨ d ∈ b) := by simp [union]

theorem last_get {l : List (Spl Q × List ℕ)} {x : Spl Q × List ℕ} (h : l.getLast? = some x) : l[l.length - 1]? = some x := by
  rw [← h, List.getLast?_eq_getElem?]

theorem head_get {α : Type} {l : List α} {x : α} (h : l.head? = some x) : l[0]? = some x := by rw [← h, List.head?_eq_getElem?]

theorem derAt_congr {s t : Spl Q} (h : Like s t) {d : ℕ} (hP : ∀ i ≤ s.n, s.P i d = t.P i d) (k : ℕ) (u : ℝ) : derAt s k u d = derAt t k u d := by
  unfold derAt
  rw [bf_like h, h.1]
  refine Finset.sum_congr rfl fun i hi => ?_
  rw [hP i (by have := Finset.mem_range.1 hi; rw [h.1]; omega)]

section
variable {m n K : ℕ} {l : List (Spl Q × List ℕ)}

/-- All the equality constraints. -/
noncomputable def equalities (m n K : ℕ) (l : List (Spl Q × List ℕ)) : List Row := problemRows m (n + 1) 0 l ++ continuityRows m (n + 1) K l

theorem derAt_eq {s : Spl Q} (hn : s.n = n) (k : ℕ) (u : ℝ) (d : ℕ) : derAt s k u d = ∑ i ∈ Finset.range (n + 1), s.P i d * bf s k u i := by
  unfold derAt; rw [hn]

/-- Inactive degrees of freedom keep their control points. -/
theorem fixed_of_sat {out : List (Spl Q)} (hs : Sat m (n + 1) (equalities m n K l) out) {j : ℕ} {s s' : Spl Q} {a : List ℕ} (hl : l[j]? = some (s, a)) (ho : out[j]? = some s')
    {i d : ℕ} (hi : i < n + 1) (hd : d < m) (ha : d ∉ a) : s'.P i d = s.P i d := by
  have := hs _ (List.mem_append_left _ (mem_problemRows (j0 := 0) hl i d hi hd ha))
  rw [zero_add] at this
  exact (fixRow_holds ho hi hd).1 this

variable {l : List (VSpl × List ℕ)}

/-- C89: the splines that satisfy the equality constraints follow each other if the initial ones do, with the same derivatives at the junctions, null at both
ends, and have the same first and last configurations; conversely the initial splines satisfy the constraints. -/
theorem C89_continuity (hv : Valid m n l) (hK : K ≤ 2 * (n + 1)) (hini : Smooth m K (l.map Prod.fst)) :
    Sat m (n + 1) (equalities m n K l) (l.map Prod.fst) ∧
    ∀ out, List.Forall₂ Like out (l.map Prod.fst) → Sat m (n + 1) (equalities m n K l) out → Smooth m K out ∧ SameEnds m out (l.map Prod.fst) := by
  have hget : ∀ {j : ℕ} {s : VSpl} {a : List ℕ}, l[j]? = some (s, a) → (l.map Prod.fst)[j]? = some s := by
    intro j s a h; rw [List.getElem?_map, h]; rfl
  have hval : ∀ {j : ℕ} {s : VSpl} {a : List ℕ}, l[j]? = some (s, a) → s.n = n ∧ s.s0 < s.s1 ∧ ∀ d ∈ a, d < m := by
    intro j s a h
    have := List.mem_of_getElem? h
    exact ⟨hv.deg _ this, hv.range _ this, hv.active _ this⟩
  -- the derivatives of the initial splines
  have hmid : ∀ {j : ℕ} {s t : VSpl} {a b : List ℕ}, l[j]? = some (s, a) → l[j + 1]? = some (t, b) → ∀ d < m, ∀ k, 1 ≤ k → k ≤ K → derAt t k 0 d - derAt s k 1 d = 0 := by
    intro j s t a b h h' d hd k h1 hk
    obtain ⟨n1, r1, _⟩ := hval h
    obtain ⟨n2, r2, _⟩ := hval h'
    have := (hini.mid j s t (hget h) (hget h') d hd).2 k h1 hk
    rw [(derAt_derivative r1 (by rw [n1]; omega) d).2, (derAt_derivative r2 (by rw [n2]; omega) d).1] at this
    have := Option.some.inj this
    rw [this, sub_self]
  have hfirst : ∀ {s : VSpl} {a : List ℕ}, l.head? = some (s, a) → ∀ d < m, ∀ k, 1 ≤ k → k ≤ K → derAt s k 0 d = 0 := by
    intro s a h d hd k h1 hk
    obtain ⟨n1, r1, _⟩ := hval (head_get h)
    have := hini.first s (by rw [List.head?_map, h]; rfl) d hd k h1 hk
    rw [(derAt_derivative r1 (by rw [n1]; omega) d).1] at this
    exact Option.some.inj this
  have hlast : ∀ {s : VSpl} {a : List ℕ}, l.getLast? = some (s, a) → ∀ d < m, ∀ k, 1 ≤ k → k ≤ K → derAt s k 1 d = 0 := by
    intro s a h d hd k h1 hk
    obtain ⟨n1, r1, _⟩ := hval (last_get h)
    have := hini.last s (by rw [List.getLast?_map, h]; rfl) d hd k h1 hk
    rw [(derAt_derivative r1 (by rw [n1]; omega) d).2] at this
    exact Option.some.inj this
  constructor
  · intro r hr
    rcases List.mem_append.1 hr with hr | hr
    · obtain ⟨j, s, a, k, d, h1, h2, h3, rfl⟩ := problemRows_mem hr
      rw [zero_add]
      exact (fixRow_holds (hget h1) h2 h3).2 rfl
    · obtain ⟨k, hk, hr⟩ := List.mem_flatMap.1 hr
      have hk := List.mem_range.1 hk
      unfold orderRows at hr
      cases hh : l.head? with
      | none => rw [hh] at hr; simp at hr
      | some x =>
        cases hl : l.getLast? with
        | none => rw [hh, hl] at hr; simp at hr
        | some y =>
          rw [hh, hl] at hr
          obtain ⟨s, a⟩ := x
          obtain ⟨t, b⟩ := y
          simp only at hr
          rcases List.mem_append.1 hr with hr | hr
          · rcases List.mem_append.1 hr with hr | hr
            · obtain ⟨d, hd, rfl⟩ := List.mem_map.1 hr
              obtain ⟨n1, _, a1⟩ := hval (head_get hh)
              rw [contRow_start (hget (head_get hh)) (a1 d hd)]
              by_cases h0 : k = 0
              · subst h0; simp
              · have : (k == 0) = false := by simpa using h0
                rw [this, if_neg (by simp), ← derAt_eq n1, hfirst hh d (a1 d hd) k (by omega) (by omega)]
            · have h00 : (0 : ℕ) = 0 * (m * (n + 1)) := by simp
              rw [h00] at hr
              obtain ⟨j, s, t, a, b, d, h1, h2, h3, rfl⟩ := midRows_mem hr
              have hd := (mem_union.1 h3).1
              obtain ⟨n1, _⟩ := hval h1
              obtain ⟨n2, _⟩ := hval h2
              rw [zero_add, contRow_mid (hget h1) (hget h2) hd]
              by_cases h0 : k = 0
              · subst h0; simp
              · have : (k == 0) = false := by simpa using h0
                rw [this, if_neg (by simp), ← derAt_eq n1, ← derAt_eq n2, hmid h1 h2 d hd k (by omega) (by omega)]
          · obtain ⟨d, hd, rfl⟩ := List.mem_map.1 hr
            obtain ⟨n1, _, a1⟩ := hval (last_get hl)
            rw [contRow_end (hget (last_get hl)) (a1 d hd)]
            by_cases h0 : k = 0
            · subst h0; simp
            · have : (k == 0) = false := by simpa using h0
              rw [this, if_neg (by simp), ← derAt_eq n1, hlast hl d (a1 d hd) k (by omega) (by omega)]
  · intro out hlike hsat
    have hcor : ∀ {j : ℕ} {s' : VSpl}, out[j]? = some s' → ∃ s a, l[j]? = some (s, a) ∧ Like s' s := by
      intro j s' h
      have hj : j < out.length := (List.getElem?_eq_some_iff.1 h).1
      have hlen := hlike.length_eq
      have hj' : j < (l.map Prod.fst).length := by omega
      have hj2 : j < l.length := by simpa using hj'
      have := (List.forall₂_iff_get.1 hlike).2 j hj hj'
      refine ⟨l[j].1, l[j].2, List.getElem?_eq_getElem hj2, ?_⟩
      have e1 : out.get ⟨j, hj⟩ = s' := (List.getElem?_eq_some_iff.1 h).2
      rw [e1] at this
      simpa using this
    have hlen : out.length = l.length := by rw [hlike.length_eq]; simp
    have hrows : ∀ k, k ≤ K → ∀ r ∈ orderRows m (n + 1) l k, r.Holds (concat m (n + 1) out) := fun k hk r hr =>
      hsat r (List.mem_append_right _ (List.mem_flatMap.2 ⟨k, List.mem_range.2 (by omega), hr⟩))
    -- at the beginning
    have hF : ∀ s', out.head? = some s' → ∃ s a, l.head? = some (s, a) ∧ Like s' s ∧ ∀ d < m, ∀ k ≤ K, derAt s' k 0 d = derAt s k 0 d := by
      intro s' h
      obtain ⟨s, a, h1, h2⟩ := hcor (head_get h)
      have hh : l.head? = some (s, a) := by rw [List.head?_eq_getElem?]; exact h1
      refine ⟨s, a, hh, h2, fun d hd k hk => ?_⟩
      obtain ⟨n1, r1, a1⟩ := hval h1
      by_cases hda : d ∈ a
      · obtain ⟨y, hy⟩ : ∃ y, l.getLast? = some y := by
          cases hl : l.getLast? with
          | none => rw [List.getLast?_eq_none_iff.1 hl] at h1; simp at h1
          | some y => exact ⟨y, rfl⟩
        have := hrows k hk (contRow m (n + 1) 0 none (some (s, bf s k 0)) (k == 0) d) (by
          unfold orderRows
          rw [hh, hy]
          exact List.mem_append_left _ (List.mem_append_left _ (List.mem_map_of_mem hda)))
        rw [contRow_start (head_get h) hd] at this
        rw [derAt_eq (h2.1.trans n1), derAt_eq n1, bf_like h2]
        by_cases h0 : k = 0
        · subst h0; simpa using this
        · have h0' : (k == 0) = false := by simpa using h0
          rw [h0', if_neg (by simp)] at this
          rw [this, ← derAt_eq n1, hfirst hh d hd k (by omega) hk]
      · exact derAt_congr h2 (fun i hi => fixed_of_sat hsat h1 (head_get h) (by rw [h2.1, n1] at hi; omega) hd hda) k 0
    -- at the end
    have hL : ∀ s', out.getLast? = some s' → ∃ s a, l.getLast? = some (s, a) ∧ Like s' s ∧ ∀ d < m, ∀ k ≤ K, derAt s' k 1 d = derAt s k 1 d := by
      intro s' h
      have ho : out[out.length - 1]? = some s' := by rw [← h, List.getLast?_eq_getElem?]
      rw [hlen] at ho
      obtain ⟨s, a, h1, h2⟩ := hcor ho
      have hh : l.getLast? = some (s, a) := by rw [List.getLast?_eq_getElem?]; exact h1
      refine ⟨s, a, hh, h2, fun d hd k hk => ?_⟩
      obtain ⟨n1, r1, a1⟩ := hval h1
      by_cases hda : d ∈ a
      · obtain ⟨y, hy⟩ : ∃ y, l.head? = some y := by
          cases hl : l.head? with
          | none => rw [List.head?_eq_none_iff.1 hl] at h1; simp at h1
          | some y => exact ⟨y, rfl⟩
        have := hrows k hk (contRow m (n + 1) ((l.length - 1) * (m * (n + 1))) (some (s, bf s k 1)) none (k == 0) d) (by
          unfold orderRows
          rw [hh, hy]
          exact List.mem_append_right _ (List.mem_map_of_mem hda))
        rw [contRow_end ho hd] at this
        rw [derAt_eq (h2.1.trans n1), derAt_eq n1, bf_like h2]
        by_cases h0 : k = 0
        · subst h0; simpa using this
        · have h0' : (k == 0) = false := by simpa using h0
          rw [h0', if_neg (by simp)] at this
          rw [this, ← derAt_eq n1, hlast hh d hd k (by omega) hk]
      · exact derAt_congr h2 (fun i hi => fixed_of_sat hsat h1 ho (by rw [h2.1, n1] at hi; omega) hd hda) k 1
    refine ⟨⟨?_, ?_, ?_⟩, ⟨?_, ?_⟩⟩
    · intro j s' t' h h' d hd
      obtain ⟨s, a, h1, h2⟩ := hcor h
      obtain ⟨t, b, h3, h4⟩ := hcor h'
      obtain ⟨n1, r1, a1⟩ := hval h1
      obtain ⟨n2, r2, a2⟩ := hval h3
      have r1' : s'.s0 < s'.s1 := by rw [h2.2.2.1, h2.2.2.2]; exact r1
      have r2' : t'.s0 < t'.s1 := by rw [h4.2.2.1, h4.2.2.2]; exact r2
      have n1' := h2.1.trans n1
      have n2' := h4.1.trans n2
      have key : ∀ k ≤ K, derAt t' k 0 d - derAt s' k 1 d = derAt t k 0 d - derAt s k 1 d := by
        intro k hk
        by_cases hda : d ∈ union m a b
        · obtain ⟨x, hx⟩ : ∃ y, l.head? = some y := by
            cases hl : l.head? with
            | none => rw [List.head?_eq_none_iff.1 hl] at h1; simp at h1
            | some y => exact ⟨y, rfl⟩
          obtain ⟨y, hy⟩ : ∃ y, l.getLast? = some y := by
            cases hl : l.getLast? with
            | none => rw [List.getLast?_eq_none_iff.1 hl] at h1; simp at h1
            | some y => exact ⟨y, rfl⟩
          have hmem := mem_midRows (m := m) (nb := n + 1) (k := k) (j0 := 0) h1 h3 d hda
          rw [zero_mul, zero_add] at hmem
          have := hrows k hk _ (by
            unfold orderRows
            rw [hx, hy]
            exact List.mem_append_left _ (List.mem_append_right _ hmem))
          rw [contRow_mid h h' hd] at this
          rw [derAt_eq n1', derAt_eq n2', derAt_eq n1, derAt_eq n2, bf_like h2, bf_like h4]
          by_cases h0 : k = 0
          · subst h0; simpa using this
          · have h0' : (k == 0) = false := by simpa using h0
            rw [h0', if_neg (by simp)] at this
            rw [this, ← derAt_eq n1, ← derAt_eq n2, hmid h1 h3 d hd k (by omega) hk]
        · have ha : d ∉ a := fun hh => hda (mem_union.2 ⟨hd, Or.inl hh⟩)
          have hb : d ∉ b := fun hh => hda (mem_union.2 ⟨hd, Or.inr hh⟩)
          rw [derAt_congr h2 (fun i hi => fixed_of_sat hsat h1 h (by rw [n1'] at hi; omega) hd ha) k 1,
            derAt_congr h4 (fun i hi => fixed_of_sat hsat h3 h' (by rw [n2'] at hi; omega) hd hb) k 0]
      constructor
      · have h0 := (hini.mid j s t (hget h1) (hget h3) d hd).1
        rw [(derAt_compute r1 d).2, (derAt_compute r2 d).1] at h0
        rw [(derAt_compute r1' d).2, (derAt_compute r2' d).1, h2.2.1, h4.2.1]
        have := key 0 (Nat.zero_le _)
        linarith
      · intro k hk1 hk
        rw [(derAt_derivative r1' (by rw [n1']; omega) d).2, (derAt_derivative r2' (by rw [n2']; omega) d).1]
        have := key k hk
        rw [hmid h1 h3 d hd k hk1 hk] at this
        congr 1
        linarith
    · intro s' h d hd k hk1 hk
      obtain ⟨s, a, h1, h2, h3⟩ := hF s' h
      obtain ⟨n1, r1, a1⟩ := hval (head_get h1)
      rw [(derAt_derivative (by rw [h2.2.2.1, h2.2.2.2]; exact r1) (by rw [h2.1, n1]; omega) d).1, h3 d hd k hk, hfirst h1 d hd k hk1 hk]
    · intro s' h d hd k hk1 hk
      obtain ⟨s, a, h1, h2, h3⟩ := hL s' h
      obtain ⟨n1, r1, a1⟩ := hval (last_get h1)
      rw [(derAt_derivative (by rw [h2.2.2.1, h2.2.2.2]; exact r1) (by rw [h2.1, n1]; omega) d).2, h3 d hd k hk, hlast h1 d hd k hk1 hk]
    · intro s' t h h' d hd
      obtain ⟨s, a, h1, h2, h3⟩ := hF s' h
      obtain ⟨n1, r1, a1⟩ := hval (head_get h1)
      rw [List.head?_map, h1] at h'
      cases h'
      rw [(derAt_compute (by rw [h2.2.2.1, h2.2.2.2]; exact r1) d).1, (derAt_compute r1 d).1, h2.2.1, h3 d hd 0 (Nat.zero_le _)]
    · intro s' t h h' d hd
      obtain ⟨s, a, h1, h2, h3⟩ := hL s' h
      obtain ⟨n1, r1, a1⟩ := hval (last_get h1)
      rw [List.getLast?_map, h1] at h'
      cases h'
      rw [(derAt_compute (by rw [h2.2.2.1, h2.2.2.2]; exact r1) d).2, (derAt_compute r1 d).2, h2.2.1, h3 d hd 0 (Nat.zero_le _)]

end

end Verif.SplineOpt
