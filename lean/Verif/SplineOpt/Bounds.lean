import Verif.SplineOpt.Continuity
set_option linter.unusedSectionVars false

/-!
# Joint bounds of vectors of splines (C91)

Configurations are vectors; degrees of freedom of rotations (`SO(n)`) have no bounds.  A bound is `none` if it is infinite.  The matrix `A` of
`jointBoundMatrices` and the matrix of a `LinearConstraint` are lists of rows; extra degrees of freedom are not handled by the code.
-/
namespace Verif.SplineOpt
open Verif.Spline

/-- Bounds of a degree of freedom; `none` for a rotation. -/
abbrev Lim := Option (Option ℝ × Option ℝ)

/-- `JointBoundConstraintAlgo::run` for one degree of freedom: src/path-optimization/spline-gradient-based/joint-bounds.hh:48-81. -/
def dofRows (base : ℕ → ℝ) (d : ℕ) : Lim → List Row
  | none => []
  | some (low, up) =>
    (match low with
      | some l => [⟨[(d, -1)], -(l - base d)⟩]
      | none => []) ++
    match up with
      | some u => [⟨[(d, 1)], u - base d⟩]
      | none => []

/-- `jointBoundMatrices`: joint-bounds.hh:124-136, from degree of freedom `d` on. -/
def matricesFrom (base : ℕ → ℝ) : ℕ → List Lim → List Row
  | _, [] => []
  | d, l :: ls => dofRows base d l ++ matricesFrom base (d + 1) ls

/-- A row of a block `-A`, `-b` of `jointBoundConstraint`: spline-gradient-based-abstract.cc:447-452. -/
def blockRow (col : ℕ) (r : Row) : Row := ⟨r.J.map fun e => (col + e.1, -e.2), -r.b⟩

/-- `jointBoundConstraint`: spline-gradient-based-abstract.cc:422-454, from spline `i` on. -/
def boundFrom (m nb : ℕ) (lims : List Lim) : ℕ → List VSpl → List Row
  | _, [] => []
  | i, s :: l => ((List.range nb).flatMap fun k => (matricesFrom s.base 0 lims).map (blockRow (i * (m * nb) + k * m))) ++ boundFrom m nb lims (i + 1) l

def boundRows (m nb : ℕ) (lims : List Lim) (splines : List VSpl) : List Row := boundFrom m nb lims 0 splines

/-- Entry of `err`: spline-gradient-based-abstract.cc:359-360: product of a row of the block and of the parameters of spline `i`. -/
noncomputable def err (m nb i : ℕ) (s : VSpl) (r : Row) : ℝ :=
  ((r.J.filter fun e => decide (i * (m * nb) ≤ e.1 ∧ e.1 < (i + 1) * (m * nb))).map fun e => e.2 * row m s (e.1 - i * (m * nb))).sum - r.b

/-- State of the innermost loop: `errM` and `iErrM`. -/
abbrev Worst := ℝ × Option ℕ

/-- One update: spline-gradient-based-abstract.cc:370-377. -/
noncomputable def upd (e : ℕ → ℝ) (c : ℕ) (w : Worst) : Worst := if e c < w.1 then (e c, some c) else w

/-- Search of the worst violation of pair `j`: spline-gradient-based-abstract.cc:365-378. -/
noncomputable def worst (e : ℕ → ℝ) (nB j : ℕ) (thr : ℝ) : ℕ → Worst
  | 0 => (-thr, none)
  | k + 1 => upd e (2 * j + k * 2 * nB + 1) (upd e (2 * j + k * 2 * nB) (worst e nB j thr k))

/-- The loop on the pairs for a spline: spline-gradient-based-abstract.cc:363-386; the state is `violated` and the active pairs. -/
noncomputable def pairs (e : ℕ → ℝ) (r nB nb : ℕ) (thr : ℝ) : ℕ → List ℕ × List ℕ → List ℕ × List ℕ
  | 0, st => st
  | j + 1, st =>
    let (v, a) := pairs e r nB nb thr j st
    if j ∈ a then (v, a)
    else match (worst e nB j thr nb).2 with
      | some c => (v ++ [r + c], j :: a)
      | none => (v, a)

/-- The loop on the splines: spline-gradient-based-abstract.cc:355-387; a row that does not exist (never read) counts as satisfied. -/
noncomputable def validateFrom (m nb rows nB : ℕ) (thr : ℝ) (lc : List Row) : ℕ → List VSpl → List ℕ × List ℕ → List ℕ × List ℕ
  | _, [], st => st
  | i, s :: l, st =>
    validateFrom m nb rows nB thr lc (i + 1) l (pairs (fun c => match lc[i * rows + c]? with
      | some r => err m nb i s r
      | none => 0) (i * rows) nB nb thr nB st)

/-- `validateBounds`: spline-gradient-based-abstract.cc:338-392, without assertions; `thr` is `dummy_precision`. -/
noncomputable def validateBounds (m nb : ℕ) (thr : ℝ) (splines : List VSpl) (lc : List Row) : List ℕ :=
  let rows := lc.length / splines.length
  (validateFrom m nb rows (rows / (2 * nb)) thr lc 0 splines ([], [])).1

/-! ## Specification -/

/-- A configuration satisfies the bounds up to `thr`. -/
def InBounds (lims : List Lim) (thr : ℝ) (q : ℕ → ℝ) : Prop :=
  ∀ d low up, lims[d]? = some (some (low, up)) → (∀ l, low = some l → l - thr ≤ q d) ∧ ∀ u, up = some u → q d ≤ u + thr

/-- The control points satisfy the bounds up to `thr`. -/
def ControlIn (n : ℕ) (lims : List Lim) (thr : ℝ) (s : VSpl) : Prop := ∀ k ≤ n, InBounds lims thr (integ s.base fun d => s.P k d)

/-- Number of finite bounds. -/
def finite (lims : List Lim) : ℕ := (lims.map fun l => match l with
  | some (low, up) => (if low.isSome then 1 else 0) + if up.isSome then 1 else 0
  | none => 0).sum

/-! ## Proofs -/

theorem dofRows_mem {base : ℕ → ℝ} {d : ℕ} {l : Lim} {r : Row} : r ∈ dofRows base d l ↔
    ∃ low up, l = some (low, up) ∧ ((∃ x, low = some x ∧ r = ⟨[(d, -1)], -(x - base d)⟩) ∨ ∃ x, up = some x ∧ r = ⟨[(d, 1)], x - base d⟩) := by
  match l with
  | none => simp [dofRows]
  | some (none, none) => simp [dofRows]
  | some (some x, none) => simp [dofRows]
  | some (none, some x) => simp [dofRows]
  | some (some x, some y) => simp [dofRows]

theorem matricesFrom_mem {base : ℕ → ℝ} {lims : List Lim} : ∀ {d0 : ℕ} {r : Row}, r ∈ matricesFrom base d0 lims ↔
    ∃ d l, lims[d]? = some l ∧ r ∈ dofRows base (d0 + d) l := by
  induction lims with
  | nil => intro d0 r; simp [matricesFrom]
  | cons l ls ih =>
    intro d0 r
    rw [matricesFrom, List.mem_append, ih]
    constructor
    · rintro (h | ⟨d, l', h1, h2⟩)
      · exact ⟨0, l, rfl, by simpa using h⟩
      · exact ⟨d + 1, l', by simpa using h1, by rwa [show d0 + (d + 1) = d0 + 1 + d by omega]⟩
    · rintro ⟨d, l', h1, h2⟩
      cases d with
      | zero => simp at h1; subst h1; exact Or.inl (by simpa using h2)
      | succ d => exact Or.inr ⟨d, l', by simpa using h1, by rwa [show d0 + 1 + d = d0 + (d + 1) by omega]⟩

theorem boundFrom_mem {m nb : ℕ} {lims : List Lim} {splines : List VSpl} : ∀ {i0 : ℕ} {r : Row}, r ∈ boundFrom m nb lims i0 splines ↔
    ∃ i s k r0, splines[i]? = some s ∧ k < nb ∧ r0 ∈ matricesFrom s.base 0 lims ∧ r = blockRow ((i0 + i) * (m * nb) + k * m) r0 := by
  induction splines with
  | nil => intro i0 r; simp [boundFrom]
  | cons s l ih =>
    intro i0 r
    rw [boundFrom, List.mem_append, ih]
    constructor
    · rintro (h | ⟨i, s', k, r0, h1, h2, h3, h4⟩)
      · obtain ⟨k, hk, h⟩ := List.mem_flatMap.1 h
        obtain ⟨r0, h3, rfl⟩ := List.mem_map.1 h
        exact ⟨0, s, k, r0, rfl, List.mem_range.1 hk, h3, rfl⟩
      · exact ⟨i + 1, s', k, r0, by simpa using h1, h2, h3, by rwa [show i0 + (i + 1) = i0 + 1 + i by omega]⟩
    · rintro ⟨i, s', k, r0, h1, h2, h3, h4⟩
      cases i with
      | zero =>
        simp at h1; subst h1
        exact Or.inl (List.mem_flatMap.2 ⟨k, List.mem_range.2 h2, List.mem_map.2 ⟨r0, h3, h4.symm⟩⟩)
      | succ i => exact Or.inr ⟨i, s', k, r0, by simpa using h1, h2, h3, by rwa [show i0 + 1 + i = i0 + (i + 1) by omega]⟩

/-- Meaning of the rows: a slack `thr` on each row is a slack on the bounds of the control points. -/
theorem slack_iff {m nb : ℕ} {lims : List Lim} (hlen : lims.length ≤ m) (thr : ℝ) (splines : List VSpl) :
    (∀ r ∈ boundRows m nb lims splines, r.b - thr ≤ dot r.J (concat m nb splines)) ↔
      ∀ (i : ℕ) (s : VSpl), splines[i]? = some s → ∀ k < nb, InBounds lims thr (integ s.base fun d => s.P k d) := by
  have val : ∀ {i : ℕ} {s : VSpl} {k d : ℕ} {x b : ℝ}, splines[i]? = some s → k < nb → d < m →
      dot (blockRow ((0 + i) * (m * nb) + k * m) ⟨[(0 + d, x)], b⟩).J (concat m nb splines) = -x * s.P k d := by
    intro i s k d x b h1 h2 h3
    simp only [blockRow, dot, List.map_cons, List.map_nil, List.sum_cons, List.sum_nil, add_zero, zero_add]
    rw [show i * (m * nb) + k * m + d = i * (m * nb) + (k * m + d) by omega, concat_at h1 h2 h3]
  have dlt : ∀ {d : ℕ} {l : Lim}, lims[d]? = some l → d < m := fun h => lt_of_lt_of_le (List.getElem?_eq_some_iff.1 h).1 hlen
  constructor
  · intro h i s hi k hk d low up hd
    have hdm := dlt hd
    constructor
    · rintro l rfl
      have := h _ (boundFrom_mem.2 ⟨i, s, k, _, hi, hk, matricesFrom_mem.2 ⟨d, _, hd, dofRows_mem.2 ⟨_, _, rfl, Or.inl ⟨l, rfl, rfl⟩⟩⟩, rfl⟩)
      rw [val hi hk hdm] at this
      simp only [blockRow, zero_add] at this
      show l - thr ≤ s.base d + s.P k d
      linarith
    · rintro u rfl
      have := h _ (boundFrom_mem.2 ⟨i, s, k, _, hi, hk, matricesFrom_mem.2 ⟨d, _, hd, dofRows_mem.2 ⟨_, _, rfl, Or.inr ⟨u, rfl, rfl⟩⟩⟩, rfl⟩)
      rw [val hi hk hdm] at this
      simp only [blockRow, zero_add] at this
      show s.base d + s.P k d ≤ u + thr
      linarith
  · intro h r hr
    obtain ⟨i, s, k, r0, hi, hk, hr0, rfl⟩ := boundFrom_mem.1 hr
    obtain ⟨d, l, hd, hr0⟩ := matricesFrom_mem.1 hr0
    obtain ⟨low, up, rfl, hr1⟩ := dofRows_mem.1 hr0
    have hb := h i s hi k hk d low up hd
    have hdm := dlt hd
    rcases hr1 with ⟨x, rfl, rfl⟩ | ⟨x, rfl, rfl⟩
    · rw [val hi hk hdm]
      have : x - thr ≤ s.base d + s.P k d := hb.1 x rfl
      simp only [blockRow, zero_add]
      linarith
    · rw [val hi hk hdm]
      have : s.base d + s.P k d ≤ x + thr := hb.2 x rfl
      simp only [blockRow, zero_add]
      linarith

/-- C91: the inequality constraints of the quadratic program mean that the control points of all the splines are within the joint bounds; then the whole path is. -/
theorem C91_rows {m n : ℕ} {lims : List Lim} (hlen : lims.length ≤ m) (splines : List VSpl) (hn : ∀ s ∈ splines, s.n = n) :
    ((∀ r ∈ boundRows m (n + 1) lims splines, r.b ≤ dot r.J (concat m (n + 1) splines)) ↔ ∀ s ∈ splines, ControlIn n lims 0 s) ∧
    ∀ s ∈ splines, ∀ thr, ControlIn n lims thr s → ∀ t, InBounds lims thr (s.compute integ t) := by
  constructor
  · have := slack_iff (nb := n + 1) hlen 0 splines
    simp only [sub_zero] at this
    rw [this]
    constructor
    · intro h s hs k hk
      obtain ⟨i, hi⟩ := List.mem_iff_getElem?.1 hs
      exact h i s hi k (by omega)
    · intro h i s hi k hk
      exact h s (List.mem_of_getElem? hi) k (by omega)
  · intro s hs thr h t d low up hd
    obtain ⟨w, h0, h1, e⟩ := C54_hull s integ t
    rw [hn s hs] at h1 e
    have ev : s.compute integ t d = ∑ i ∈ Finset.range (n + 1), w i * (s.base d + s.P i d) := by
      rw [e]
      show s.base d + _ = _
      simp only [mul_add, Finset.sum_add_distrib]
      rw [← Finset.sum_mul, h1, one_mul]
    have hk : ∀ i ∈ Finset.range (n + 1), i ≤ n := fun i hi => Nat.lt_succ_iff.1 (Finset.mem_range.1 hi)
    constructor
    · intro l hl
      rw [ev, ← one_mul (l - thr), ← h1, Finset.sum_mul]
      exact Finset.sum_le_sum fun i hi => mul_le_mul_of_nonneg_left ((h i (hk i hi) d low up hd).1 l hl) (h0 i)
    · intro u hu
      rw [ev, ← one_mul (u + thr), ← h1, Finset.sum_mul]
      exact Finset.sum_le_sum fun i hi => mul_le_mul_of_nonneg_left ((h i (hk i hi) d low up hd).2 u hu) (h0 i)

/-! ## `validateBounds` -/

theorem upd_none {e : ℕ → ℝ} {c : ℕ} {w : Worst} : (upd e c w).2 = none ↔ w.2 = none ∧ w.1 ≤ e c := by
  unfold upd
  by_cases h : e c < w.1
  · rw [if_pos h]; simp [h]
  · rw [if_neg h]; simp [not_lt.1 h]

theorem upd_none_val {e : ℕ → ℝ} {c : ℕ} {w : Worst} (h : (upd e c w).2 = none) : upd e c w = w := by
  unfold upd at *
  by_cases h' : e c < w.1
  · rw [if_pos h'] at h; cases h
  · rw [if_neg h']

theorem worst_none {e : ℕ → ℝ} {nB j : ℕ} {thr : ℝ} : ∀ {nb : ℕ},
    ((worst e nB j thr nb).2 = none ↔ ∀ k < nb, -thr ≤ e (2 * j + k * 2 * nB) ∧ -thr ≤ e (2 * j + k * 2 * nB + 1)) ∧
      ((worst e nB j thr nb).2 = none → (worst e nB j thr nb).1 = -thr)
  | 0 => by simp [worst]
  | k + 1 => by
    obtain ⟨h1, h2⟩ := worst_none (e := e) (nB := nB) (j := j) (thr := thr) (nb := k)
    constructor
    · rw [worst, upd_none, upd_none]
      constructor
      · rintro ⟨⟨a, b⟩, c⟩ i hi
        rw [upd_none_val (upd_none.2 ⟨a, b⟩), h2 a] at c
        rw [h2 a] at b
        rcases Nat.lt_succ_iff_lt_or_eq.1 hi with hi | rfl
        · exact h1.1 a i hi
        · exact ⟨b, c⟩
      · intro h
        have a := h1.2 fun i hi => h i (by omega)
        have hk := h k (by omega)
        have b : (worst e nB j thr k).1 ≤ e (2 * j + k * 2 * nB) := by rw [h2 a]; exact hk.1
        refine ⟨⟨a, b⟩, ?_⟩
        rw [upd_none_val (upd_none.2 ⟨a, b⟩), h2 a]
        exact hk.2
    · intro h
      rw [worst] at h ⊢
      rw [upd_none_val h]
      have h' := (upd_none.1 h).1
      rw [upd_none_val h']
      exact h2 (upd_none.1 h').1

theorem pairs_mono {e : ℕ → ℝ} {r nB nb : ℕ} {thr : ℝ} {st : List ℕ × List ℕ} : ∀ {j : ℕ}, ∃ x, (pairs e r nB nb thr j st).1 = st.1 ++ x
  | 0 => ⟨[], by simp [pairs]⟩
  | j + 1 => by
    obtain ⟨x, hx⟩ := pairs_mono (e := e) (r := r) (nB := nB) (nb := nb) (thr := thr) (st := st) (j := j)
    rw [pairs]
    simp only
    by_cases h : j ∈ (pairs e r nB nb thr j st).2
    · rw [if_pos h]; exact ⟨x, hx⟩
    · rw [if_neg h]
      cases (worst e nB j thr nb).2 with
      | none => exact ⟨x, hx⟩
      | some c => exact ⟨x ++ [r + c], by simp only; rw [hx, List.append_assoc]⟩

theorem pairs_nil {e : ℕ → ℝ} {r nB nb : ℕ} {thr : ℝ} : ∀ {j : ℕ}, ((pairs e r nB nb thr j ([], [])).1 = [] ↔ ∀ i < j, (worst e nB i thr nb).2 = none) ∧
    ((pairs e r nB nb thr j ([], [])).1 = [] → pairs e r nB nb thr j ([], []) = ([], []))
  | 0 => by simp [pairs]
  | j + 1 => by
    obtain ⟨h1, h2⟩ := pairs_nil (e := e) (r := r) (nB := nB) (nb := nb) (thr := thr) (j := j)
    by_cases hz : (pairs e r nB nb thr j ([], [])).1 = []
    · rw [pairs, h2 hz]
      simp only
      rw [if_neg (by simp)]
      cases hw : (worst e nB j thr nb).2 with
      | none =>
        simp only
        refine ⟨⟨fun _ i hi => ?_, fun _ => trivial⟩, fun _ => trivial⟩
        rcases Nat.lt_succ_iff_lt_or_eq.1 hi with hi | rfl
        · exact h1.1 hz i hi
        · exact hw
      | some c =>
        simp only
        constructor
        · constructor
          · intro h; simp at h
          · intro h
            have := h j (by omega)
            rw [hw] at this
            cases this
        · intro h; simp at h
    · have hne : (pairs e r nB nb thr (j + 1) ([], [])).1 ≠ [] := by
        rw [pairs]
        simp only
        by_cases h : j ∈ (pairs e r nB nb thr j ([], [])).2
        · rw [if_pos h]; exact hz
        · rw [if_neg h]
          cases (worst e nB j thr nb).2 with
          | none => exact hz
          | some c => simp
      refine ⟨⟨fun h => absurd h hne, fun h => absurd (h1.2 fun i hi => h i (by omega)) hz⟩, fun h => absurd h hne⟩

theorem validateFrom_mono {m nb rows nB : ℕ} {thr : ℝ} {lc : List Row} : ∀ {splines : List VSpl} {i : ℕ} {st : List ℕ × List ℕ},
    ∃ x, (validateFrom m nb rows nB thr lc i splines st).1 = st.1 ++ x
  | [], i, st => ⟨[], by simp [validateFrom]⟩
  | s :: l, i, st => by
    rw [validateFrom]
    obtain ⟨x, hx⟩ := validateFrom_mono (m := m) (nb := nb) (rows := rows) (nB := nB) (thr := thr) (lc := lc) (splines := l) (i := i + 1)
      (st := pairs (fun c => match lc[i * rows + c]? with
      | some r => err m nb i s r
      | none => 0) (i * rows) nB nb thr nB st)
    obtain ⟨y, hy⟩ := pairs_mono (e := fun c => match lc[i * rows + c]? with
      | some r => err m nb i s r
      | none => 0) (r := i * rows) (nB := nB) (nb := nb) (thr := thr) (st := st) (j := nB)
    exact ⟨y ++ x, by rw [hx, hy, List.append_assoc]⟩

theorem validateFrom_nil {m nb rows nB : ℕ} {thr : ℝ} {lc : List Row} : ∀ {splines : List VSpl} {i0 : ℕ},
    (validateFrom m nb rows nB thr lc i0 splines ([], [])).1 = [] ↔ ∀ (i : ℕ) (s : VSpl), splines[i]? = some s → ∀ j < nB, (worst (fun c => match lc[(i0 + i) * rows + c]? with
      | some r => err m nb (i0 + i) s r
      | none => 0) nB j thr nb).2 = none
  | [], i0 => by simp [validateFrom]
  | s :: l, i0 => by
    rw [validateFrom]
    obtain ⟨h1, h2⟩ := pairs_nil (e := fun c => match lc[i0 * rows + c]? with
      | some r => err m nb i0 s r
      | none => 0) (r := i0 * rows) (nB := nB) (nb := nb) (thr := thr) (j := nB)
    by_cases hz : (pairs (fun c => match lc[i0 * rows + c]? with
      | some r => err m nb i0 s r
      | none => 0) (i0 * rows) nB nb thr nB ([], [])).1 = []
    · rw [h2 hz, validateFrom_nil]
      constructor
      · intro h i s' hi
        cases i with
        | zero => simp at hi; subst hi; exact h1.1 hz
        | succ i =>
          have := h i s' (by simpa using hi)
          rwa [show i0 + 1 + i = i0 + (i + 1) by omega] at this
      · intro h i s' hi
        have := h (i + 1) s' (by simpa using hi)
        rwa [show i0 + (i + 1) = i0 + 1 + i by omega] at this
    · constructor
      · intro h
        obtain ⟨x, hx⟩ := validateFrom_mono (m := m) (nb := nb) (rows := rows) (nB := nB) (thr := thr) (lc := lc) (splines := l) (i := i0 + 1)
          (st := pairs (fun c => match lc[i0 * rows + c]? with
          | some r => err m nb i0 s r
          | none => 0) (i0 * rows) nB nb thr nB ([], []))
        rw [h] at hx
        exact absurd (List.append_eq_nil_iff.1 hx.symm).1 hz
      · intro h
        exact absurd (h1.2 (h 0 s rfl)) hz

theorem length_dofRows (base : ℕ → ℝ) (d : ℕ) (l : Lim) : (dofRows base d l).length = finite [l] := by
  match l with
  | none => rfl
  | some (none, none) => rfl
  | some (some x, none) => rfl
  | some (none, some x) => rfl
  | some (some x, some y) => rfl

theorem length_matrices (base : ℕ → ℝ) (lims : List Lim) : ∀ d, (matricesFrom base d lims).length = finite lims := by
  induction lims with
  | nil => intro d; rfl
  | cons l ls ih =>
    intro d
    rw [matricesFrom, List.length_append, ih, length_dofRows]
    simp [finite]

theorem length_flat {α : Type} (f : ℕ → List α) (R : ℕ) (hf : ∀ k, (f k).length = R) : ∀ nb, ((List.range nb).flatMap f).length = nb * R
  | 0 => by simp
  | nb + 1 => by
    rw [List.range_succ, List.flatMap_append, List.length_append, length_flat f R hf nb]
    simp [hf, Nat.add_mul]

theorem length_block (m nb : ℕ) (lims : List Lim) (s : VSpl) (i : ℕ) :
    ((List.range nb).flatMap fun k => (matricesFrom s.base 0 lims).map (blockRow (i * (m * nb) + k * m))).length = nb * finite lims :=
  length_flat _ _ (fun k => by rw [List.length_map, length_matrices]) nb

theorem length_bound (m nb : ℕ) (lims : List Lim) : ∀ (splines : List VSpl) (i : ℕ), (boundFrom m nb lims i splines).length = splines.length * (nb * finite lims)
  | [], i => by simp [boundFrom]
  | s :: l, i => by
    rw [boundFrom, List.length_append, length_block, length_bound m nb lims l, List.length_cons]
    ring

/-- The rows of a spline. -/
theorem bound_get (m nb : ℕ) (lims : List Lim) : ∀ (splines : List VSpl) (i0 i : ℕ) (s : VSpl), splines[i]? = some s → ∀ c < nb * finite lims,
    (boundFrom m nb lims i0 splines)[i * (nb * finite lims) + c]? =
      ((List.range nb).flatMap fun k => (matricesFrom s.base 0 lims).map (blockRow ((i0 + i) * (m * nb) + k * m)))[c]?
  | [], i0, i, s, h, c, hc => by simp at h
  | t :: l, i0, i, s, h, c, hc => by
    rw [boundFrom]
    cases i with
    | zero =>
      simp at h; subst h
      rw [zero_mul, zero_add, List.getElem?_append_left (by rw [length_block]; exact hc), add_zero]
    | succ i =>
      rw [List.getElem?_append_right (by rw [length_block, Nat.add_mul]; omega), length_block]
      have e : (i + 1) * (nb * finite lims) + c - nb * finite lims = i * (nb * finite lims) + c := by rw [Nat.add_mul]; omega
      rw [e, bound_get m nb lims l (i0 + 1) i s (by simpa using h) c hc, show i0 + 1 + i = i0 + (i + 1) by omega]

/-- The error of a row of a spline. -/
theorem err_eq {m nb : ℕ} {lims : List Lim} (hlen : lims.length ≤ m) {splines : List VSpl} {i : ℕ} {s : VSpl} (hi : splines[i]? = some s) {r : Row}
    (hr : r ∈ (List.range nb).flatMap fun k => (matricesFrom s.base 0 lims).map (blockRow (i * (m * nb) + k * m))) :
    err m nb i s r = dot r.J (concat m nb splines) - r.b := by
  obtain ⟨k, hk, hr⟩ := List.mem_flatMap.1 hr
  obtain ⟨r0, hr0, rfl⟩ := List.mem_map.1 hr
  obtain ⟨d, l, hd, hr0⟩ := matricesFrom_mem.1 hr0
  have hdm : d < m := lt_of_lt_of_le (List.getElem?_eq_some_iff.1 hd).1 hlen
  have hk := List.mem_range.1 hk
  have key : ∀ x b : ℝ, err m nb i s (blockRow (i * (m * nb) + k * m) ⟨[(0 + d, x)], b⟩) =
      dot (blockRow (i * (m * nb) + k * m) ⟨[(0 + d, x)], b⟩).J (concat m nb splines) - (blockRow (i * (m * nb) + k * m) ⟨[(0 + d, x)], b⟩).b := by
    intro x b
    unfold err
    congr 1
    simp only [blockRow, List.map_cons, List.map_nil, zero_add, dot, List.sum_cons, List.sum_nil, add_zero]
    have hlt : k * m + d < m * nb := by
      have : (k + 1) * m ≤ nb * m := Nat.mul_le_mul_right m hk
      rw [Nat.add_mul, mul_comm nb] at this
      omega
    rw [List.filter_cons_of_pos (by simp only [decide_eq_true_eq]; rw [Nat.add_mul]; omega)]
    simp only [List.filter_nil, List.map_cons, List.map_nil, List.sum_cons, List.sum_nil, add_zero]
    obtain ⟨_, _, h3, h4⟩ := idx m nb i k d hk hdm
    rw [show i * (m * nb) + k * m + d = i * (m * nb) + (k * m + d) by omega, concat_at hi hk hdm]
    unfold row
    rw [show i * (m * nb) + (k * m + d) - i * (m * nb) = k * m + d by omega, h3, mul_comm k m, Nat.mul_add_mod, Nat.mod_eq_of_lt hdm]
  obtain ⟨low, up, rfl, hr1⟩ := dofRows_mem.1 hr0
  rcases hr1 with ⟨x, rfl, rfl⟩ | ⟨x, rfl, rfl⟩
  · exact key _ _
  · exact key _ _

/-- C91: when the number of finite bounds is even (each degree of freedom has two bounds or none), the check finds no violation if and only if the control points of all
the splines are within the joint bounds, up to the threshold.  Missing for the full claim: see `C91_odd_counterexample`. -/
theorem C91_validate_partial {m n : ℕ} {lims : List Lim} (hlen : lims.length ≤ m) (heven : finite lims % 2 = 0) (thr : ℝ) (splines : List VSpl) :
    validateBounds m (n + 1) thr splines (boundRows m (n + 1) lims splines) = [] ↔ ∀ s ∈ splines, ControlIn n lims thr s := by
  by_cases hne : splines = []
  · subst hne
    simp [validateBounds, validateFrom]
  have hpos : 0 < splines.length := List.length_pos_of_ne_nil hne
  have hrows : (boundRows m (n + 1) lims splines).length / splines.length = (n + 1) * finite lims := by
    unfold boundRows
    rw [length_bound, Nat.mul_div_cancel_left _ hpos]
  obtain ⟨B, hB⟩ : ∃ B, finite lims = 2 * B := ⟨finite lims / 2, by omega⟩
  have hnB : (n + 1) * finite lims / (2 * (n + 1)) = B := by
    rw [hB, show (n + 1) * (2 * B) = 2 * (n + 1) * B by ring, Nat.mul_div_cancel_left _ (by omega)]
  unfold validateBounds
  simp only
  rw [hrows, hnB, validateFrom_nil]
  have hall : (∀ s ∈ splines, ControlIn n lims thr s) ↔ ∀ (i : ℕ) (s : VSpl), splines[i]? = some s → ∀ k < n + 1, InBounds lims thr (integ s.base fun d => s.P k d) := by
    constructor
    · intro h i s hi k hk
      exact h s (List.mem_of_getElem? hi) k (by omega)
    · intro h s hs k hk
      obtain ⟨i, hi⟩ := List.mem_iff_getElem?.1 hs
      exact h i s hi k (by omega)
  rw [hall, ← slack_iff hlen thr splines]
  -- entries read for spline `i`
  have hget : ∀ {i : ℕ} {s : VSpl}, splines[i]? = some s → ∀ c < (n + 1) * finite lims, ∃ r, (boundRows m (n + 1) lims splines)[(0 + i) * ((n + 1) * finite lims) + c]? = some r ∧
      r ∈ boundRows m (n + 1) lims splines ∧ err m (n + 1) (0 + i) s r = dot r.J (concat m (n + 1) splines) - r.b := by
    intro i s hi c hc
    have h1 := bound_get m (n + 1) lims splines 0 i s hi c hc
    have hlt : c < ((List.range (n + 1)).flatMap fun k => (matricesFrom s.base 0 lims).map (blockRow ((0 + i) * (m * (n + 1)) + k * m))).length := by rw [length_block]; exact hc
    obtain ⟨r, hr⟩ : ∃ r, ((List.range (n + 1)).flatMap fun k => (matricesFrom s.base 0 lims).map (blockRow ((0 + i) * (m * (n + 1)) + k * m)))[c]? = some r :=
      ⟨_, List.getElem?_eq_getElem hlt⟩
    rw [hr] at h1
    simp only [zero_add] at hr ⊢
    exact ⟨r, h1, List.mem_of_getElem? h1, err_eq hlen hi (List.mem_of_getElem? hr)⟩
  constructor
  · intro h r hr
    obtain ⟨i, s, k, r0, hi, hk, hr0, rfl⟩ := boundFrom_mem.1 hr
    -- position of the row
    have hmem : blockRow ((0 + i) * (m * (n + 1)) + k * m) r0 ∈ (List.range (n + 1)).flatMap fun k => (matricesFrom s.base 0 lims).map (blockRow ((0 + i) * (m * (n + 1)) + k * m)) :=
      List.mem_flatMap.2 ⟨k, List.mem_range.2 hk, List.mem_map.2 ⟨r0, hr0, rfl⟩⟩
    obtain ⟨c, hc⟩ := List.mem_iff_getElem?.1 hmem
    have hclt : c < (n + 1) * finite lims := by
      have := (List.getElem?_eq_some_iff.1 hc).1
      rwa [length_block] at this
    obtain ⟨r, hr1, hr2, hr3⟩ := hget hi c hclt
    have h1 := bound_get m (n + 1) lims splines 0 i s hi c hclt
    rw [hc] at h1
    have : r = blockRow ((0 + i) * (m * (n + 1)) + k * m) r0 := by
      unfold boundRows at hr1
      rw [zero_add] at hr1
      rw [h1] at hr1
      exact (Option.some.inj hr1).symm
    subst this
    -- pair of the row
    have hBpos : 0 < B := by
      rcases Nat.eq_zero_or_pos B with h0 | h0
      · rw [hB, h0, mul_zero, mul_zero] at hclt; omega
      · exact h0
    have hk' : c / (2 * B) < n + 1 := by
      rw [Nat.div_lt_iff_lt_mul (by omega), ← hB]; exact hclt
    have hj : c % (2 * B) / 2 < B := by
      have := Nat.mod_lt c (show 0 < 2 * B by omega)
      omega
    have hw := (worst_none.1.1 (h i s hi (c % (2 * B) / 2) hj)) (c / (2 * B)) hk'
    have hsplit := Nat.div_add_mod c (2 * B)
    have hcomm : 2 * B * (c / (2 * B)) = c / (2 * B) * 2 * B := by ring
    have hc' : c = 2 * (c % (2 * B) / 2) + c / (2 * B) * 2 * B ∨ c = 2 * (c % (2 * B) / 2) + c / (2 * B) * 2 * B + 1 := by omega
    rcases hc' with hc' | hc'
    · have := hw.1
      rw [← hc'] at this
      simp only [hr1] at this
      rw [hr3] at this
      linarith
    · have := hw.2
      rw [← hc'] at this
      simp only [hr1] at this
      rw [hr3] at this
      linarith
  · intro h i s hi j hj
    refine worst_none.1.2 fun k hk => ?_
    have hle : ∀ c < (n + 1) * finite lims, -thr ≤ (match (boundRows m (n + 1) lims splines)[(0 + i) * ((n + 1) * finite lims) + c]? with
        | some r => err m (n + 1) (0 + i) s r
        | none => 0) := by
      intro c hc
      obtain ⟨r, hr1, hr2, hr3⟩ := hget hi c hc
      rw [hr1]
      simp only
      rw [hr3]
      have := h r hr2
      linarith
    have hlt : 2 * j + k * 2 * B + 1 < (n + 1) * finite lims := by
      have : (k + 1) * (2 * B) ≤ (n + 1) * (2 * B) := Nat.mul_le_mul_right _ hk
      rw [hB]
      have e : (k + 1) * (2 * B) = k * 2 * B + 2 * B := by ring
      omega
    exact ⟨hle _ (by omega), hle _ hlt⟩

/-- C91: a robot with one finite bound only: violations are not seen (the assertion on the number of rows is not compiled in release mode). -/
theorem C91_odd_counterexample (thr : ℝ) : ∃ (lims : List Lim) (s : VSpl), lims.length ≤ 1 ∧ ¬ControlIn 1 lims 1 s ∧
    validateBounds 1 2 thr [s] (boundRows 1 2 lims [s]) = [] := by
  refine ⟨[some (some 0, none)], ⟨1, fun _ => 0, fun _ _ => -2, 0, 1⟩, le_rfl, ?_, ?_⟩
  · intro h
    have := (h 0 (Nat.zero_le _) 0 (some 0) none rfl).1 0 rfl
    simp [integ] at this
  · rfl

/-- C91: a path within the bounds, made of a spline whose control points are not: the check finds a violation (`optimize` throws). -/
theorem C91_refused_counterexample : ∃ (lims : List Lim) (s : VSpl), s.n = 3 ∧ s.s0 < s.s1 ∧ (∀ t, InBounds lims 0 (s.compute integ t)) ∧
    validateBounds 1 4 (1 / 10) [s] (boundRows 1 4 lims [s]) ≠ [] := by
  refine ⟨[some (some 0, some 1)], ⟨3, fun _ => 0, fun i _ => if i = 1 ∨ i = 2 then 6 / 5 else 0, 0, 1⟩, rfl, by norm_num, ?_, ?_⟩
  · intro t d low up hd
    obtain ⟨h0, h1⟩ := param_mem (⟨3, fun _ => 0, fun i _ => if i = 1 ∨ i = 2 then 6 / 5 else 0, 0, 1⟩ : VSpl) t
    cases d with
    | succ d => simp at hd
    | zero =>
      have e : Spl.compute (⟨3, fun _ => 0, fun i _ => if i = 1 ∨ i = 2 then 6 / 5 else 0, 0, 1⟩ : VSpl) integ t 0 =
          18 / 5 * (Spl.param (⟨3, fun _ => 0, fun i _ => if i = 1 ∨ i = 2 then 6 / 5 else 0, 0, 1⟩ : VSpl) t *
            (1 - Spl.param (⟨3, fun _ => 0, fun i _ => if i = 1 ∨ i = 2 then 6 / 5 else 0, 0, 1⟩ : VSpl) t)) := by
        unfold Spl.compute integ
        rw [velocity_eq]
        simp [curve, Finset.sum_range_succ, bernsteinPolynomial, Nat.choose]
        ring
      rw [e]
      generalize Spl.param _ t = u at *
      simp at hd
      obtain ⟨rfl, rfl⟩ := hd
      constructor
      · intro l hl
        cases hl
        nlinarith
      · intro l hl
        cases hl
        nlinarith [sq_nonneg (u - 1 / 2)]
  · intro h
    have := (C91_validate_partial (m := 1) (n := 3) (lims := [some (some 0, some 1)]) le_rfl rfl (1 / 10) _).1 h _ (List.mem_singleton_self _) 1 (by omega) 0 (some 0) (some 1) rfl
    have := this.2 1 rfl
    simp [integ] at this
    norm_num at this

/-- Two degrees of freedom, one of them without bounds; a spline within the bounds. -/
example : ∃ (lims : List Lim) (s : VSpl), lims.length ≤ 2 ∧ finite lims % 2 = 0 ∧ finite lims = 2 ∧ ControlIn 3 lims 0 s ∧ s.P 0 0 ≠ s.P 1 0 := by
  refine ⟨[some (some (-1), some 1), some (none, none)], ⟨3, fun _ => 0, fun i _ => if i = 0 then 0 else 1, 0, 1⟩, le_rfl, rfl, rfl, ?_, by simp⟩
  intro k _ d low up hd
  match d with
  | 0 =>
    simp at hd
    obtain ⟨rfl, rfl⟩ := hd
    constructor
    · intro l hl; cases hl; simp only [integ]; split <;> norm_num
    · intro l hl; cases hl; simp only [integ]; split <;> norm_num
  | 1 =>
    simp at hd
    obtain ⟨rfl, rfl⟩ := hd
    exact ⟨fun l hl => (by cases hl), fun l hl => (by cases hl)⟩
  | d + 2 => simp at hd

end Verif.SplineOpt
