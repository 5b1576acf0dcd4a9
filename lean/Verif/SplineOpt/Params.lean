import Verif.Path.Spline
import Mathlib.Tactic.NormNum
set_option linter.unusedSectionVars false

/-!
# Parameters of vectors of splines and linear constraints on them (C89)

`SplineGradientBased` stores a path as a vector of splines of the same degree; the optimization variables are their control points, concatenated.
`m` is the number of degrees of freedom of the robot, `nb` the number of control points of a spline.  A row of the matrix of a
`LinearConstraint` is the list of its non null coefficients with their columns; with its right hand side it is a `Row`.
-/
namespace Verif.SplineOpt
open Verif.Spline

variable {Q : Type}

/-- `Spline::rowParameters () const`: include/hpp/core/path/spline.hh:231-234, the matrix of control points is stored by rows. -/
def row (m : ℕ) (s : Spl Q) (c : ℕ) : ℝ := s.P (c / m) (c % m)

/-- `Spline::rowParameters (p)`: spline.hh:236-239. -/
def setRow (m : ℕ) (s : Spl Q) (p : ℕ → ℝ) : Spl Q := { s with P := fun i d => p (i * m + d) }

/-- `updateSplines`: src/path-optimization/spline-gradient-based-abstract.cc:464-472; `r` is the local variable `row`. -/
def updateFrom (m nb : ℕ) (x : ℕ → ℝ) : ℕ → List (Spl Q) → List (Spl Q)
  | _, [] => []
  | r, s :: l => setRow m s (fun c => x (r + c)) :: updateFrom m nb x (r + m * nb) l

def updateSplines (m nb : ℕ) (splines : List (Spl Q)) (x : ℕ → ℝ) : List (Spl Q) := updateFrom m nb x 0 splines

/-- `updateParameters`: spline-gradient-based-abstract.cc:474-483; entries that are not written are `none` (the vector is only resized). -/
def updateParameters (m nb : ℕ) (splines : List (Spl Q)) (c : ℕ) : Option ℝ :=
  match (splines.drop 2)[c / (m * nb)]? with
  | some s => some (row m s (c % (m * nb)))
  | none => none

/-- `interpolate`: spline-gradient-based-abstract.cc:485-497; `res` has the bases and ranges of the splines it is copied from. -/
noncomputable def interpolate (m : ℕ) (a b : List (Spl Q)) (alpha : ℝ) (res : List (Spl Q)) : List (Spl Q) :=
  List.zipWith (fun (ab : Spl Q × Spl Q) r => setRow m r (fun c => (1 - alpha) * row m ab.1 c + alpha * row m ab.2 c)) (a.zip b) res

/-- A row of a `LinearConstraint`. -/
structure Row where
  J : List (ℕ × ℝ)
  b : ℝ

/-! ## Specification -/

/-- Concatenation of the control points of splines. -/
def concat (m nb : ℕ) (splines : List (Spl Q)) (c : ℕ) : ℝ :=
  match splines[c / (m * nb)]? with
  | some s => s.P (c % (m * nb) / m) (c % m)
  | none => 0

/-- Product of a row and a vector. -/
def dot (J : List (ℕ × ℝ)) (x : ℕ → ℝ) : ℝ := (J.map fun e => e.2 * x e.1).sum

def Row.Holds (r : Row) (x : ℕ → ℝ) : Prop := dot r.J x = r.b

/-- Splines which differ by their control points only. -/
def Like (s t : Spl Q) : Prop := s.n = t.n ∧ s.base = t.base ∧ s.s0 = t.s0 ∧ s.s1 = t.s1

/-! ## Lemmas -/

theorem Like.refl (s : Spl Q) : Like s s := ⟨rfl, rfl, rfl, rfl⟩
theorem Like.symm {s t : Spl Q} (h : Like s t) : Like t s := ⟨h.1.symm, h.2.1.symm, h.2.2.1.symm, h.2.2.2.symm⟩
theorem Like.trans {s t u : Spl Q} (h : Like s t) (h' : Like t u) : Like s u :=
  ⟨h.1.trans h'.1, h.2.1.trans h'.2.1, h.2.2.1.trans h'.2.2.1, h.2.2.2.trans h'.2.2.2⟩

theorem like_setRow (m : ℕ) (s : Spl Q) (p : ℕ → ℝ) : Like (setRow m s p) s := ⟨rfl, rfl, rfl, rfl⟩

theorem idx (m nb j i d : ℕ) (hi : i < nb) (hd : d < m) :
    (j * (m * nb) + (i * m + d)) / (m * nb) = j ∧ (j * (m * nb) + (i * m + d)) % (m * nb) = i * m + d ∧ (i * m + d) / m = i ∧
      (j * (m * nb) + (i * m + d)) % m = d := by
  have hlt : i * m + d < m * nb := by
    have : (i + 1) * m ≤ nb * m := Nat.mul_le_mul_right m hi
    rw [mul_comm m nb]
    rw [Nat.add_mul] at this
    omega
  have hm : 0 < m := by omega
  have hp : 0 < m * nb := by omega
  refine ⟨?_, ?_, ?_, ?_⟩
  · rw [mul_comm j, Nat.mul_add_div hp, Nat.div_eq_of_lt hlt, add_zero]
  · rw [mul_comm j, Nat.mul_add_mod, Nat.mod_eq_of_lt hlt]
  · rw [mul_comm i, Nat.mul_add_div hm, Nat.div_eq_of_lt hd, add_zero]
  · rw [show j * (m * nb) + (i * m + d) = m * (j * nb + i) + d by ring, Nat.mul_add_mod, Nat.mod_eq_of_lt hd]

/-- Entry of the concatenation. -/
theorem concat_at {m nb : ℕ} {splines : List (Spl Q)} {j i d : ℕ} {s : Spl Q} (hj : splines[j]? = some s) (hi : i < nb) (hd : d < m) :
    concat m nb splines (j * (m * nb) + (i * m + d)) = s.P i d := by
  obtain ⟨h1, h2, h3, h4⟩ := idx m nb j i d hi hd
  unfold concat
  rw [h1, hj]
  simp only
  rw [h2, h3, h4]

theorem length_updateFrom (m nb : ℕ) (x : ℕ → ℝ) (splines : List (Spl Q)) : ∀ r, (updateFrom m nb x r splines).length = splines.length := by
  induction splines with
  | nil => intro r; rfl
  | cons s l ih => intro r; simp only [updateFrom, List.length_cons, ih]

theorem updateFrom_get (m nb : ℕ) (x : ℕ → ℝ) (splines : List (Spl Q)) : ∀ r j,
    (updateFrom m nb x r splines)[j]? = splines[j]?.map fun s => setRow m s (fun c => x (r + j * (m * nb) + c)) := by
  induction splines with
  | nil => intro r j; simp [updateFrom]
  | cons s l ih =>
    intro r j
    cases j with
    | zero => simp [updateFrom]
    | succ j =>
      simp only [updateFrom, List.getElem?_cons_succ, ih]
      congr 1
      funext s'
      congr 1
      funext c
      congr 1
      ring

/-- Columns of the variables. -/
theorem col_split {m nb N c : ℕ} (hc : c < N * (m * nb)) : c / (m * nb) < N ∧ ∃ i d, i < nb ∧ d < m ∧ c = c / (m * nb) * (m * nb) + (i * m + d) := by
  have hp : 0 < m * nb := by
    rcases Nat.eq_zero_or_pos (m * nb) with h | h
    · rw [h, mul_zero] at hc; omega
    · exact h
  have hm : 0 < m := Nat.pos_of_mul_pos_right hp
  refine ⟨(Nat.div_lt_iff_lt_mul hp).2 hc, c % (m * nb) / m, c % (m * nb) % m, ?_, Nat.mod_lt _ hm, ?_⟩
  · rw [Nat.div_lt_iff_lt_mul hm, mul_comm nb]
    exact Nat.mod_lt _ hp
  · rw [Nat.div_add_mod' (c % (m * nb)) m, Nat.div_add_mod']

/-- C89: `updateSplines` gives each spline its control points, in order, and changes nothing else. -/
theorem C89_updateSplines (m nb : ℕ) (splines : List (Spl Q)) (x : ℕ → ℝ) :
    (∀ c, c < splines.length * (m * nb) → concat m nb (updateSplines m nb splines x) c = x c) ∧
      List.Forall₂ Like (updateSplines m nb splines x) splines := by
  constructor
  · intro c hc
    obtain ⟨hj, i, d, hi, hd, e⟩ := col_split hc
    obtain ⟨s, hs⟩ : ∃ s, splines[c / (m * nb)]? = some s := ⟨_, List.getElem?_eq_getElem hj⟩
    have hg := updateFrom_get m nb x splines 0 (c / (m * nb))
    rw [hs, Option.map_some] at hg
    unfold updateSplines
    conv_lhs => rw [e]
    rw [concat_at hg hi hd]
    show x (0 + c / (m * nb) * (m * nb) + (i * m + d)) = x c
    rw [zero_add, ← e]
  · unfold updateSplines
    generalize 0 = r
    induction splines generalizing r with
    | nil => exact List.Forall₂.nil
    | cons s l ih => exact List.Forall₂.cons (like_setRow m s _) (ih _)

/-- C89: `updateParameters`, which is to give the parameters of the splines, skips the first two splines: for two splines no entry is written. -/
theorem C89_updateParameters_counterexample (m nb : ℕ) (s t : Spl Q) (c : ℕ) : updateParameters m nb [s, t] c = none := by
  simp [updateParameters]

theorem row_concat {m i d : ℕ} {s : Spl Q} (hd : d < m) : row m s (i * m + d) = s.P i d := by
  have hm : 0 < m := by omega
  unfold row
  rw [mul_comm i, Nat.mul_add_div hm, Nat.div_eq_of_lt hd, add_zero, Nat.mul_add_mod, Nat.mod_eq_of_lt hd]

/-- C89: the interpolation is affine in the variables, and changes control points only. -/
theorem C89_interpolate (m nb : ℕ) {a b res : List (Spl Q)} (alpha : ℝ) (hab : a.length = b.length) (hbr : b.length = res.length) :
    (∀ c, c < a.length * (m * nb) → concat m nb (interpolate m a b alpha res) c = (1 - alpha) * concat m nb a c + alpha * concat m nb b c) ∧
      List.Forall₂ Like (interpolate m a b alpha res) res := by
  constructor
  · intro c hc
    obtain ⟨hj, i, d, hi, hd, e⟩ := col_split hc
    obtain ⟨sa, ha⟩ : ∃ s, a[c / (m * nb)]? = some s := ⟨_, List.getElem?_eq_getElem hj⟩
    obtain ⟨sb, hb⟩ : ∃ s, b[c / (m * nb)]? = some s := ⟨_, List.getElem?_eq_getElem (by omega)⟩
    obtain ⟨sr, hr⟩ : ∃ s, res[c / (m * nb)]? = some s := ⟨_, List.getElem?_eq_getElem (by omega)⟩
    have hz : (a.zip b)[c / (m * nb)]? = some (sa, sb) := List.getElem?_zip_eq_some.2 ⟨ha, hb⟩
    have hg : (interpolate m a b alpha res)[c / (m * nb)]? = some (setRow m sr (fun c => (1 - alpha) * row m sa c + alpha * row m sb c)) := by
      unfold interpolate
      rw [List.getElem?_zipWith, hz, hr]
    rw [e, concat_at hg hi hd, concat_at ha hi hd, concat_at hb hi hd]
    show (1 - alpha) * row m sa (i * m + d) + alpha * row m sb (i * m + d) = _
    rw [row_concat hd, row_concat hd]
  · unfold interpolate
    have hl : (a.zip b).length = res.length := by simp [hab, hbr]
    generalize a.zip b = z at hl
    clear hab hbr
    induction z generalizing res with
    | nil => cases res with
      | nil => exact List.Forall₂.nil
      | cons r l => simp at hl
    | cons p z ih => cases res with
      | nil => simp at hl
      | cons r l => exact List.Forall₂.cons (like_setRow m r _) (ih (by simpa using hl))

theorem dot_congr {J : List (ℕ × ℝ)} {x y : ℕ → ℝ} (h : ∀ e ∈ J, x e.1 = y e.1) : dot J x = dot J y := by
  unfold dot
  congr 1
  exact List.map_congr_left fun e he => by rw [h e he]

theorem dot_affine (J : List (ℕ × ℝ)) (x y : ℕ → ℝ) (a b : ℝ) : dot J (fun c => a * x c + b * y c) = a * dot J x + b * dot J y := by
  unfold dot
  induction J with
  | nil => simp
  | cons e J ih => simp only [List.map_cons, List.sum_cons, ih]; ring

theorem dot_append (J J' : List (ℕ × ℝ)) (x : ℕ → ℝ) : dot (J ++ J') x = dot J x + dot J' x := by simp [dot]

theorem dot_map_range (n : ℕ) (f : ℕ → ℕ) (g : ℕ → ℝ) (x : ℕ → ℝ) :
    dot ((List.range n).map fun i => (f i, g i)) x = ∑ i ∈ Finset.range n, g i * x (f i) := by
  unfold dot
  rw [List.map_map]
  induction n with
  | zero => simp
  | succ n ih => rw [List.range_succ, List.map_append, List.sum_append, ih, Finset.sum_range_succ]; simp

end Verif.SplineOpt
