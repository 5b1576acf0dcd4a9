import Verif.Path.Spline
import Mathlib.Algebra.Order.Floor.Ring
import Mathlib.Tactic.NormNum
import Mathlib.Tactic.IntervalCases
set_option linter.unusedSectionVars false

/-!
# Velocity bound of splines on an interval (C54)
-/
namespace Verif.Spline
open Polynomial

/-- `iToThePowerOfI`: spline.cc:253-256. -/
def ipow (n i : ℕ) : ℕ := if 1 ≤ i ∧ i < n then i ^ i else 1

/-- `absBound`: spline.cc:250-273. -/
noncomputable def absBound (n : ℕ) (up : Bool) (i : ℕ) : ℝ :=
  if i = 0 ∨ i = n then n
  else if i = 1 ∨ i + 1 = n then (if n = 2 then 2 else (ipow n (n - 2) : ℝ) / (n : ℝ) ^ (n - 3))
  else
    let p := if up then ipow n i * ipow n (n - i - 1) else ipow n (n - i) * ipow n (i - 1)
    ((binom n i * p : ℕ) : ℝ) / (ipow n (n - 1) : ℝ)

/-- `res.segment (r1, nr)` with `nr = max (r2 - r1 + 1, 0)`: coefficient `i` is replaced by its maximum with `b`. -/
noncomputable def segMax (r1 r2 : ℤ) (i : ℕ) (r b : ℝ) : ℝ := if r1 ≤ i ∧ (i : ℤ) ≤ r2 then max r b else r

/-- Coefficient `i` of `bound (1, t0, t1, res)`: spline.cc:205-248. -/
noncomputable def bound (n : ℕ) (t0 t1 : ℝ) (i : ℕ) : ℝ :=
  let r0 := max |basis n 1 t0 i| |basis n 1 t1 i|
  let r1 := if i = 1 ∧ (t0 * n < 2 ∧ 2 < t1 * n) then max r0 (absBound n true 1) else r0
  let r2 := if i + 1 = n ∧ (t0 * n < (n : ℝ) - 2 ∧ (n : ℝ) - 2 < t1 * n) then max r1 (absBound n true (n - 1)) else r1
  if 3 < n then
    let r3 := segMax (max ⌈t0 * ((n : ℝ) - 1)⌉ 2) ⌊t1 * ((n : ℝ) - 1)⌋ i r2 (absBound n true i)
    segMax ⌈1 + t0 * ((n : ℝ) - 1)⌉ (min ⌊1 + t1 * ((n : ℝ) - 1)⌋ ((n : ℤ) - 2)) i r3 (absBound n false i)
  else r2

variable {Q : Type}

/-- `impl_velocityBound`: spline.cc:424-434.  `none`: division by a null length. -/
noncomputable def Spl.velocityBound (S : Spl Q) (t0 t1 : ℝ) (d : ℕ) : Option ℝ :=
  if S.s1 - S.s0 = 0 then none
  else
    let u0 := (t0 - S.s0) / (S.s1 - S.s0)
    let u1 := (t1 - S.s0) / (S.s1 - S.s0)
    some (∑ i ∈ Finset.range (S.n + 1), |S.P i d| * (bound S.n u0 u1 i / (S.s1 - S.s0)))

theorem basis_one (n i : ℕ) (hi : i ≤ n) (u : ℝ) : basis n 1 u i = n * ((bi (n - 1) i 1).eval u - (bernsteinPolynomial ℝ (n - 1) i).eval u) := by
  rw [C54_basis n 1 u i hi]
  simp only [Function.iterate_one]
  rw [derivative_bern, eval_mul, eval_natCast, eval_sub]

theorem bound1 (t0 t1 u : ℝ) (i : ℕ) (hi : i ≤ 1) : |basis 1 1 u i| ≤ bound 1 t0 t1 i := by
  have hb : ∀ v, |basis 1 1 v i| = 1 := by
    intro v
    rw [basis_one 1 i hi]
    interval_cases i <;> simp [bi, bernsteinPolynomial]
  unfold bound
  simp only [hb]
  rw [if_neg (by norm_num)]
  split
  · exact le_max_of_le_left (by split <;> simp)
  · split <;> simp

theorem abs_le_max_iff {x a b : ℝ} (h : x ≤ max |a| |b|) (h' : -x ≤ max |a| |b|) : |x| ≤ max |a| |b| := abs_le'.2 ⟨h, h'⟩

theorem le_max_abs_of {x a b : ℝ} (h : x ≤ a ∨ x ≤ b) : x ≤ max |a| |b| := by
  rcases h with h | h
  · exact le_max_of_le_left (le_trans h (le_abs_self a))
  · exact le_max_of_le_right (le_trans h (le_abs_self b))

theorem neg_le_max_abs_of {x a b : ℝ} (h : a ≤ x ∨ b ≤ x) : -x ≤ max |a| |b| := by
  rcases h with h | h
  · exact le_max_of_le_left (le_trans (neg_le_neg h) (neg_le_abs a))
  · exact le_max_of_le_right (le_trans (neg_le_neg h) (neg_le_abs b))

theorem bound3 (t0 t1 u : ℝ) (h0 : 0 ≤ t0) (h1 : t1 ≤ 1) (hu : t0 ≤ u ∧ u ≤ t1) (i : ℕ) (hi : i ≤ 3) : |basis 3 1 u i| ≤ bound 3 t0 t1 i := by
  obtain ⟨hu0, hu1⟩ := hu
  have e0 : ∀ v, basis 3 1 v 0 = -3 * (1 - v) ^ 2 := by
    intro v; rw [basis_one 3 0 (by omega)]; simp [bi, bernsteinPolynomial]
  have e1 : ∀ v, basis 3 1 v 1 = 3 * (1 - v) * (1 - 3 * v) := by
    intro v; rw [basis_one 3 1 (by omega)]; simp [bi, bernsteinPolynomial]; ring
  have e2 : ∀ v, basis 3 1 v 2 = 3 * v * (2 - 3 * v) := by
    intro v; rw [basis_one 3 2 (by omega)]; simp [bi, bernsteinPolynomial]; ring
  have e3 : ∀ v, basis 3 1 v 3 = 3 * v ^ 2 := by
    intro v; rw [basis_one 3 3 (by omega)]; simp [bi, bernsteinPolynomial]
  unfold bound
  simp only
  rw [if_neg (by norm_num)]
  interval_cases i
  · rw [if_neg (by norm_num), if_neg (by norm_num), e0, e0, e0]
    apply abs_le_max_iff
    · apply le_max_abs_of; right; nlinarith
    · apply neg_le_max_abs_of; left; nlinarith
  · rw [if_neg (by norm_num), e1, e1, e1]
    have ha : absBound 3 true 1 = 1 := by norm_num [absBound, ipow]
    by_cases hc : t0 * 3 < 2 ∧ 2 < t1 * 3
    · rw [if_pos ⟨rfl, by exact_mod_cast hc⟩, ha]
      rw [abs_le']
      constructor
      · apply le_max_of_le_left
        apply le_max_abs_of
        by_cases hm : u ≤ 2 / 3
        · left; nlinarith
        · right; nlinarith
      · apply le_max_of_le_right
        nlinarith [sq_nonneg (3 * u - 2)]
    · rw [if_neg (by rintro ⟨_, h⟩; exact hc (by exact_mod_cast h))]
      have hm : 2 ≤ t0 * 3 ∨ t1 * 3 ≤ 2 := by
        by_contra hcon
        push Not at hcon
        exact hc hcon
      apply abs_le_max_iff
      · apply le_max_abs_of
        rcases hm with hm | hm
        · right; nlinarith
        · left; nlinarith
      · apply neg_le_max_abs_of
        rcases hm with hm | hm
        · left; nlinarith
        · right; nlinarith
  · have h21 : ((2 : ℕ) = 1) = False := by simp
    simp only [h21, false_and, if_false]
    rw [e2, e2, e2]
    have ha : absBound 3 true 2 = 1 := by norm_num [absBound, ipow]
    by_cases hc : t0 * 3 < 1 ∧ 1 < t1 * 3
    · rw [if_pos ⟨trivial, by norm_num; exact hc⟩]
      show _ ≤ max _ (absBound 3 true 2)
      rw [ha, abs_le']
      constructor
      · apply le_max_of_le_right
        nlinarith [sq_nonneg (3 * u - 1)]
      · apply le_max_of_le_left
        apply neg_le_max_abs_of
        by_cases hm : u ≤ 1 / 3
        · left; nlinarith
        · right; nlinarith
    · rw [if_neg (by rintro ⟨_, h⟩; apply hc; norm_num at h; exact h)]
      have hm : 1 ≤ t0 * 3 ∨ t1 * 3 ≤ 1 := by
        by_contra hcon
        push Not at hcon
        exact hc hcon
      apply abs_le_max_iff
      · apply le_max_abs_of
        rcases hm with hm | hm
        · left; nlinarith
        · right; nlinarith
      · apply neg_le_max_abs_of
        rcases hm with hm | hm
        · right; nlinarith
        · left; nlinarith
  · rw [if_neg (by norm_num), if_neg (by norm_num), e3, e3, e3]
    apply abs_le_max_iff
    · apply le_max_abs_of; right; nlinarith
    · apply neg_le_max_abs_of; left; nlinarith

/-- C54 (partial): `velocityBound` bounds the velocity on every interval of the range for degrees 1 and 3.  Missing: degrees 5 and 7, for which
it is false. -/
theorem C54_velocityBound_partial (S : Spl Q) (hn : S.n = 1 ∨ S.n = 3) (h : S.s0 < S.s1) (t0 t1 : ℝ) (h0 : S.s0 ≤ t0) (h1 : t1 ≤ S.s1)
    (s : ℝ) (hs : t0 ≤ s ∧ s ≤ t1) (d : ℕ) :
    ∃ v b, S.derivative s 1 d = some v ∧ S.velocityBound t0 t1 d = some b ∧ |v| ≤ b := by
  have hL : 0 < S.s1 - S.s0 := by linarith
  unfold Spl.derivative Spl.velocityBound
  rw [if_neg hL.ne', if_neg hL.ne', if_neg (by omega)]
  refine ⟨_, _, rfl, rfl, ?_⟩
  refine le_trans (Finset.abs_sum_le_sum_abs _ _) (Finset.sum_le_sum fun i hi => ?_)
  have hi' : i ≤ S.n := Nat.lt_succ_iff.1 (Finset.mem_range.1 hi)
  rw [abs_mul, abs_div, pow_one, abs_of_pos hL]
  apply mul_le_mul_of_nonneg_left _ (abs_nonneg _)
  apply div_le_div_of_nonneg_right _ hL.le
  have a0 : 0 ≤ (t0 - S.s0) / (S.s1 - S.s0) := div_nonneg (by linarith) hL.le
  have a1 : (t1 - S.s0) / (S.s1 - S.s0) ≤ 1 := by rw [div_le_one hL]; linarith
  have a2 : (t0 - S.s0) / (S.s1 - S.s0) ≤ (s - S.s0) / (S.s1 - S.s0) := div_le_div_of_nonneg_right (by linarith [hs.1]) hL.le
  have a3 : (s - S.s0) / (S.s1 - S.s0) ≤ (t1 - S.s0) / (S.s1 - S.s0) := div_le_div_of_nonneg_right (by linarith [hs.2]) hL.le
  rcases hn with hn | hn
  · rw [hn] at hi' ⊢; exact bound1 _ _ _ i hi'
  · rw [hn] at hi' ⊢; exact bound3 _ _ _ a0 a1 ⟨a2, a3⟩ i hi'

/-- A quintic spline with one non null control point. -/
noncomputable def quintic : Spl ℝ := ⟨5, 0, fun i _ => if i = 2 then 1 else 0, 0, 1⟩

theorem bound5 : bound 5 0 1 2 = 270 / 256 := by
  have e : ∀ v, basis 5 1 v 2 = 10 * v * (1 - v) ^ 2 * (2 - 5 * v) := by
    intro v; rw [basis_one 5 2 (by omega)]; simp [bi, bernsteinPolynomial, Nat.choose]; ring
  have hu : absBound 5 true 2 = 160 / 256 := by norm_num [absBound, ipow, binom, Nat.factorial]
  have hd : absBound 5 false 2 = 270 / 256 := by norm_num [absBound, ipow, binom, Nat.factorial]
  unfold bound
  simp only [e, hu, hd]
  norm_num [segMax]

/-- C54: for degree 5, the bound is exceeded. -/
theorem C54_quintic_counterexample : ∃ v b, quintic.derivative (3 / 20) 1 0 = some v ∧ quintic.velocityBound 0 1 0 = some b ∧ b < |v| := by
  have e : ∀ v, basis 5 1 v 2 = 10 * v * (1 - v) ^ 2 * (2 - 5 * v) := by
    intro v; rw [basis_one 5 2 (by omega)]; simp [bi, bernsteinPolynomial, Nat.choose]; ring
  unfold Spl.derivative Spl.velocityBound
  rw [if_neg (by norm_num [quintic]), if_neg (by norm_num [quintic]), if_neg (by norm_num [quintic])]
  refine ⟨_, _, rfl, rfl, ?_⟩
  simp only [quintic, Finset.sum_range_succ, Finset.sum_range_zero]
  norm_num [bound5, e]

/-- A spline of degree 7 with one non null control point. -/
noncomputable def septic : Spl ℝ := ⟨7, 0, fun i _ => if i = 2 then 1 else 0, 0, 1⟩

theorem bound7 : bound 7 0 1 2 = 65625 / 46656 := by
  have e : ∀ v, basis 7 1 v 2 = 21 * v * (1 - v) ^ 4 * (2 - 7 * v) := by
    intro v; rw [basis_one 7 2 (by omega)]; simp [bi, bernsteinPolynomial, Nat.choose]; ring
  have hu : absBound 7 true 2 = 21504 / 46656 := by norm_num [absBound, ipow, binom, Nat.factorial]
  have hd : absBound 7 false 2 = 65625 / 46656 := by norm_num [absBound, ipow, binom, Nat.factorial]
  unfold bound
  simp only [e, hu, hd]
  norm_num [segMax]

/-- C54: for degree 7, the bound is exceeded. -/
theorem C54_septic_counterexample : ∃ v b, septic.derivative (1 / 10) 1 0 = some v ∧ septic.velocityBound 0 1 0 = some b ∧ b < |v| := by
  have e : ∀ v, basis 7 1 v 2 = 21 * v * (1 - v) ^ 4 * (2 - 7 * v) := by
    intro v; rw [basis_one 7 2 (by omega)]; simp [bi, bernsteinPolynomial, Nat.choose]; ring
  unfold Spl.derivative Spl.velocityBound
  rw [if_neg (by norm_num [septic]), if_neg (by norm_num [septic]), if_neg (by norm_num [septic])]
  refine ⟨_, _, rfl, rfl, ?_⟩
  simp only [septic, Finset.sum_range_succ, Finset.sum_range_zero]
  norm_num [bound7, e]

example : splEx.n = 3 ∧ splEx.s0 < splEx.s1 ∧ splEx.s0 ≤ 0 ∧ (1 : ℝ) ≤ splEx.s1 := by norm_num [splEx]

end Verif.Spline
