import Mathlib.RingTheory.Polynomial.Bernstein
import Mathlib.Analysis.Calculus.Deriv.Polynomial
import Mathlib.Analysis.Calculus.Deriv.Comp
import Mathlib.Analysis.Calculus.IteratedDeriv.Defs
import Mathlib.Algebra.BigOperators.Field
import Mathlib.Tactic.Linarith
import Mathlib.Tactic.Ring
import Mathlib.Tactic.FieldSimp
import Mathlib.Tactic.Positivity
set_option linter.unusedSectionVars false

/-!
# Splines in the basis of Bernstein (C54)

The degree is any natural number (1, 3, 5, 7 are instantiated); loops that accumulate a sum are written as sums; integers are unbounded.
-/
namespace Verif.Spline
open Polynomial

/-- `binomials::binomial`: include/hpp/core/path/math.hh:51-57. -/
def binom (n k : ℕ) : ℕ := n.factorial / (k.factorial * (n - k).factorial)

/-- The sign `(k - p) % 2 == 0 ? 1 : -1`. -/
def sgn (m : ℕ) : ℝ := if m % 2 = 0 then 1 else -1

/-- Coefficient `i` of `spline_basis_function<BernsteinBasis, n>::derivative (k, t, res)`: spline.cc:133-159 (and `eval`, 128-131, for `k = 0`). -/
noncomputable def basis (n k : ℕ) (t : ℝ) (i : ℕ) : ℝ :=
  if n < k then 0
  else
    (∑ p ∈ Finset.Icc (k + i - n) (min i k),
      sgn (k - p) * (binom k p : ℝ) * t ^ (i - p) * (1 - t) ^ (n - k - (i - p)) /
        (((i - p).factorial * (n - k - (i - p)).factorial : ℕ) : ℝ)) * (n.factorial : ℝ)

/-! ## The basis and its derivatives -/

theorem sgn_eq (m : ℕ) : sgn m = (-1) ^ m := by
  unfold sgn
  rcases Nat.even_or_odd m with h | h
  · rw [if_pos (Nat.even_iff.1 h), h.neg_one_pow]
  · rw [if_neg (by rw [Nat.odd_iff.1 h]; decide), h.neg_one_pow]

theorem binom_eq {n k : ℕ} (h : k ≤ n) : binom n k = n.choose k := (Nat.choose_eq_factorial_div_factorial h).symm

/-- Polynomial `i - p` of degree `m`, zero if `p > i`. -/
noncomputable def bi (m i p : ℕ) : ℝ[X] := if p ≤ i then bernsteinPolynomial ℝ m (i - p) else 0

theorem derivative_bern (m j : ℕ) : derivative (bernsteinPolynomial ℝ m j) = (m : ℝ[X]) * (bi (m - 1) j 1 - bernsteinPolynomial ℝ (m - 1) j) := by
  cases j with
  | zero => rw [bernsteinPolynomial.derivative_zero]; simp [bi]
  | succ j => rw [bernsteinPolynomial.derivative_succ]; simp [bi]

theorem derivative_bi (m i p : ℕ) : derivative (bi m i p) = (m : ℝ[X]) * (bi (m - 1) i (p + 1) - bi (m - 1) i p) := by
  by_cases h : p ≤ i
  · have e : bi m i p = bernsteinPolynomial ℝ m (i - p) := if_pos h
    have e' : bi (m - 1) i p = bernsteinPolynomial ℝ (m - 1) (i - p) := if_pos h
    rw [e, e', derivative_bern]
    congr 2
    unfold bi
    by_cases h1 : 1 ≤ i - p
    · rw [if_pos h1, if_pos (by omega)]; congr 1
    · rw [if_neg h1, if_neg (by omega)]
  · have e : bi m i p = 0 := if_neg h
    have e' : bi (m - 1) i p = 0 := if_neg h
    have e'' : bi (m - 1) i (p + 1) = 0 := if_neg (by omega)
    rw [e, e', e'']; simp

theorem pascal_sum (k : ℕ) (g : ℕ → ℝ[X]) :
    ∑ p ∈ Finset.range (k + 2), (C ((-1 : ℝ) ^ (k + 1 + p) * ((k + 1).choose p : ℝ))) * g p =
      ∑ p ∈ Finset.range (k + 1), (C ((-1 : ℝ) ^ (k + p) * (k.choose p : ℝ))) * (g (p + 1) - g p) := by
  have h1 : ∑ p ∈ Finset.range (k + 1), (C ((-1 : ℝ) ^ (k + p) * (k.choose p : ℝ))) * g p =
      ∑ p ∈ Finset.range (k + 2), (C ((-1 : ℝ) ^ (k + p) * (k.choose p : ℝ))) * g p := by
    rw [Finset.sum_range_succ _ (k + 1)]; simp
  simp only [mul_sub, Finset.sum_sub_distrib]
  rw [h1, Finset.sum_range_succ' _ (k + 1), Finset.sum_range_succ' (fun p => (C ((-1 : ℝ) ^ (k + p) * (k.choose p : ℝ))) * g p) (k + 1)]
  rw [sub_add_eq_sub_sub, ← Finset.sum_sub_distrib]
  rw [sub_eq_add_neg]
  congr 1
  · refine Finset.sum_congr rfl fun p _ => ?_
    rw [← sub_mul, ← C_sub]
    congr 2
    rw [Nat.choose_succ_succ]
    push_cast
    ring
  · rw [← neg_mul, ← C_neg]
    congr 2
    simp
    ring

theorem iterate_bern (k n i : ℕ) : derivative^[k] (bernsteinPolynomial ℝ n i) =
    C (n.descFactorial k : ℝ) * ∑ p ∈ Finset.range (k + 1), C ((-1 : ℝ) ^ (k + p) * (k.choose p : ℝ)) * bi (n - k) i p := by
  induction k with
  | zero => simp [bi]
  | succ k ih =>
    rw [Function.iterate_succ_apply', ih, derivative_C_mul, derivative_sum]
    have : ∀ p ∈ Finset.range (k + 1), derivative (C ((-1 : ℝ) ^ (k + p) * (k.choose p : ℝ)) * bi (n - k) i p) =
        C ((n - k : ℕ) : ℝ) * (C ((-1 : ℝ) ^ (k + p) * (k.choose p : ℝ)) * (bi (n - (k + 1)) i (p + 1) - bi (n - (k + 1)) i p)) := by
      intro p _
      rw [derivative_C_mul, derivative_bi, Nat.sub_sub, ← C_eq_natCast]
      ring
    rw [Finset.sum_congr rfl this, ← Finset.mul_sum, ← pascal_sum, ← mul_assoc, ← C_mul]
    congr 2
    rw [Nat.descFactorial_succ]
    push_cast
    ring

/-- C54: the basis functions are the polynomials of Bernstein, and the derivatives are their derivatives, for all degrees and orders. -/
theorem C54_basis (n k : ℕ) (t : ℝ) (i : ℕ) (_hi : i ≤ n) : basis n k t i = (derivative^[k] (bernsteinPolynomial ℝ n i)).eval t := by
  rw [iterate_bern, eval_mul, eval_C, eval_finsetSum]
  unfold basis
  by_cases hk : n < k
  · rw [if_pos hk, Nat.descFactorial_of_lt hk]; simp
  · rw [if_neg hk]
    have hkn : k ≤ n := not_lt.1 hk
    rw [mul_comm, Finset.mul_sum, Finset.mul_sum]
    have hsub : Finset.Icc (k + i - n) (min i k) ⊆ Finset.range (k + 1) := by
      intro p hp
      rw [Finset.mem_Icc] at hp
      rw [Finset.mem_range]; omega
    rw [← Finset.sum_subset hsub]
    · refine Finset.sum_congr rfl fun p hp => ?_
      rw [Finset.mem_Icc] at hp
      have hpi : p ≤ i := by omega
      have hpk : p ≤ k := by omega
      have hin : i - p ≤ n - k := by omega
      have e : bi (n - k) i p = bernsteinPolynomial ℝ (n - k) (i - p) := if_pos hpi
      rw [eval_mul, eval_C, e, bernsteinPolynomial.eq_1]
      simp only [eval_mul, eval_natCast, eval_pow, eval_X, eval_sub, eval_one]
      rw [sgn_eq, binom_eq hpk]
      have hs : (-1 : ℝ) ^ (k + p) = (-1) ^ (k - p) := by
        have : k + p = (k - p) + 2 * p := by omega
        rw [this, pow_add, pow_mul]; norm_num
      rw [hs]
      have hf : (n.factorial : ℝ) = (n.descFactorial k : ℝ) * ((n - k).factorial : ℝ) := by
        rw [← Nat.factorial_mul_descFactorial hkn]; push_cast; ring
      have hc : ((n - k).factorial : ℝ) = ((n - k).choose (i - p) : ℝ) * ((i - p).factorial : ℝ) * ((n - k - (i - p)).factorial : ℝ) := by
        rw [← Nat.choose_mul_factorial_mul_factorial hin]; push_cast; ring
      have h1 : ((i - p).factorial : ℝ) ≠ 0 := by positivity
      have h2 : ((n - k - (i - p)).factorial : ℝ) ≠ 0 := by positivity
      rw [hf, hc]
      push_cast
      field_simp
    · intro p hp hnp
      rw [Finset.mem_range] at hp
      rw [Finset.mem_Icc] at hnp
      have : bi (n - k) i p = 0 := by
        unfold bi
        by_cases hpi : p ≤ i
        · rw [if_pos hpi]
          apply bernsteinPolynomial.eq_zero_of_lt
          omega
        · rw [if_neg hpi]
      rw [this]; simp

/-! ## The path -/

/-- A spline: degree, base, control points (row `i`, degree of freedom `d`), range of parameters.  No time parameterization. -/
structure Spl (Q : Type) where
  n : ℕ
  base : Q
  P : ℕ → ℕ → ℝ
  s0 : ℝ
  s1 : ℝ

variable {Q : Type}

/-- `velocity` computed by `value`: spline.cc:455-470. -/
noncomputable def Spl.velocity (S : Spl Q) (u : ℝ) (d : ℕ) : ℝ := ∑ i ∈ Finset.range (S.n + 1), S.P i d * basis S.n 0 u i

/-- The parameter `u` of `impl_compute`: spline.cc:355-369. -/
noncomputable def Spl.param (S : Spl Q) (s : ℝ) : ℝ :=
  if S.s1 - S.s0 = 0 then 0
  else
    let u := (s - S.s0) / (S.s1 - S.s0)
    if u < 0 then 0 else if 1 < u then 1 else u

/-- `impl_compute`: spline.cc:353-372; `integrate` is the integration in the Lie group. -/
noncomputable def Spl.compute (S : Spl Q) (integrate : Q → (ℕ → ℝ) → Q) (s : ℝ) : Q := integrate S.base (S.velocity (S.param s))

/-- `impl_derivative` before the multiplication by the Jacobian of the integration (done only when the configuration space is not a vector
space): spline.cc:375-387, with `basisFunctionDerivative` 314-325.  `none`: `powersOfT_` is read out of range. -/
noncomputable def Spl.derivative (S : Spl Q) (s : ℝ) (order : ℕ) (d : ℕ) : Option ℝ :=
  if S.s1 - S.s0 = 0 then some 0
  else if 2 * (S.n + 1) + 1 ≤ order then none
  else some (∑ i ∈ Finset.range (S.n + 1), S.P i d * (basis S.n order ((s - S.s0) / (S.s1 - S.s0)) i / (S.s1 - S.s0) ^ order))

/-- `maxVelocity` with `absDerBounds`: spline.cc:328-333, 200-203. -/
noncomputable def Spl.maxVelocity (S : Spl Q) (d : ℕ) : ℝ := ∑ i ∈ Finset.range (S.n + 1), (2 * S.n) / (S.s1 - S.s0) * |S.P i d|

theorem bern_nonneg (n i : ℕ) (u : ℝ) (h0 : 0 ≤ u) (h1 : u ≤ 1) : 0 ≤ (bernsteinPolynomial ℝ n i).eval u := by
  rw [bernsteinPolynomial.eq_1]
  simp only [eval_mul, eval_natCast, eval_pow, eval_X, eval_sub, eval_one]
  have : 0 ≤ 1 - u := by linarith
  positivity

theorem bern_sum (n : ℕ) (u : ℝ) : ∑ i ∈ Finset.range (n + 1), (bernsteinPolynomial ℝ n i).eval u = 1 := by
  rw [← eval_finsetSum, bernsteinPolynomial.sum]; simp

theorem bern_le (n i : ℕ) (u : ℝ) (h0 : 0 ≤ u) (h1 : u ≤ 1) : (bernsteinPolynomial ℝ n i).eval u ≤ 1 := by
  by_cases hi : i ≤ n
  · rw [← bern_sum n u]
    exact Finset.single_le_sum (f := fun i => (bernsteinPolynomial ℝ n i).eval u) (fun j _ => bern_nonneg n j u h0 h1)
      (Finset.mem_range.2 (Nat.lt_succ_of_le hi))
  · rw [bernsteinPolynomial.eq_zero_of_lt _ (not_le.1 hi)]; simp

theorem basis_zero (n i : ℕ) (hi : i ≤ n) (u : ℝ) : basis n 0 u i = (bernsteinPolynomial ℝ n i).eval u := by
  rw [C54_basis n 0 u i hi]; rfl

/-- Spec: the curve of control points `P`, as a combination of the polynomials of Bernstein. -/
noncomputable def curve (n : ℕ) (P : ℕ → ℕ → ℝ) (d : ℕ) : ℝ[X] := ∑ i ∈ Finset.range (n + 1), C (P i d) * bernsteinPolynomial ℝ n i

theorem velocity_eq (S : Spl Q) (u : ℝ) (d : ℕ) : S.velocity u d = (curve S.n S.P d).eval u := by
  unfold Spl.velocity curve
  rw [eval_finsetSum]
  refine Finset.sum_congr rfl fun i hi => ?_
  rw [basis_zero _ _ (Nat.lt_succ_iff.1 (Finset.mem_range.1 hi))]
  simp

theorem param_mem (S : Spl Q) (s : ℝ) : 0 ≤ S.param s ∧ S.param s ≤ 1 := by
  unfold Spl.param
  split
  · simp
  · simp only
    split
    · simp
    · split
      · simp
      · exact ⟨not_lt.1 ‹_›, not_lt.1 ‹_›⟩

theorem param_eq (S : Spl Q) (h : S.s0 < S.s1) (s : ℝ) (hs : S.s0 ≤ s ∧ s ≤ S.s1) : S.param s = (s - S.s0) / (S.s1 - S.s0) := by
  have hL : 0 < S.s1 - S.s0 := by linarith
  unfold Spl.param
  rw [if_neg hL.ne']
  have h0 : 0 ≤ (s - S.s0) / (S.s1 - S.s0) := div_nonneg (by linarith) hL.le
  have h1 : (s - S.s0) / (S.s1 - S.s0) ≤ 1 := by rw [div_le_one hL]; linarith
  simp only
  rw [if_neg (not_lt.2 h0), if_neg (not_lt.2 h1)]

/-- C54: the configuration at a parameter of the range is the base plus the Bernstein combination of the control points; first and last control
points are reached at the ends of the range. -/
theorem C54_value (S : Spl Q) (integrate : Q → (ℕ → ℝ) → Q) (h : S.s0 < S.s1) :
    (∀ s, S.s0 ≤ s → s ≤ S.s1 → S.compute integrate s = integrate S.base fun d => (curve S.n S.P d).eval ((s - S.s0) / (S.s1 - S.s0))) ∧
    S.compute integrate S.s0 = integrate S.base (S.P 0) ∧ S.compute integrate S.s1 = integrate S.base (S.P S.n) := by
  have hL : 0 < S.s1 - S.s0 := by linarith
  have hv : ∀ s, S.s0 ≤ s → s ≤ S.s1 → S.compute integrate s = integrate S.base fun d => (curve S.n S.P d).eval ((s - S.s0) / (S.s1 - S.s0)) := by
    intro s h0 h1
    unfold Spl.compute
    rw [param_eq S h s ⟨h0, h1⟩]
    congr 1
    funext d
    exact velocity_eq S _ d
  refine ⟨hv, ?_, ?_⟩
  · rw [hv S.s0 le_rfl h.le]
    congr 1
    funext d
    rw [sub_self, zero_div]
    unfold curve
    rw [eval_finsetSum, Finset.sum_eq_single 0]
    · simp [bernsteinPolynomial.eval_at_0]
    · intro b _ hb; simp [bernsteinPolynomial.eval_at_0, hb]
    · intro hb; simp at hb
  · rw [hv S.s1 h.le le_rfl]
    congr 1
    funext d
    rw [div_self hL.ne']
    unfold curve
    rw [eval_finsetSum, Finset.sum_eq_single S.n]
    · simp [bernsteinPolynomial.eval_at_1]
    · intro b _ hb; simp [bernsteinPolynomial.eval_at_1, hb]
    · intro hb; simp at hb

/-- C54: for any parameter, even outside of the range or for an empty range, the curve stays in the convex hull of the control points. -/
theorem C54_hull (S : Spl Q) (integrate : Q → (ℕ → ℝ) → Q) (s : ℝ) :
    ∃ w : ℕ → ℝ, (∀ i, 0 ≤ w i) ∧ ∑ i ∈ Finset.range (S.n + 1), w i = 1 ∧
      S.compute integrate s = integrate S.base fun d => ∑ i ∈ Finset.range (S.n + 1), w i * S.P i d := by
  obtain ⟨h0, h1⟩ := param_mem S s
  refine ⟨fun i => (bernsteinPolynomial ℝ S.n i).eval (S.param s), fun i => bern_nonneg _ _ _ h0 h1, bern_sum _ _, ?_⟩
  unfold Spl.compute
  congr 1
  funext d
  rw [velocity_eq]
  unfold curve
  rw [eval_finsetSum]
  exact Finset.sum_congr rfl fun i _ => by simp [mul_comm]

/-- C54: when the range is empty (null length), the last control point is not reached. -/
theorem C54_null_counterexample : let S : Spl ℝ := ⟨1, 0, fun i _ => i, 0, 0⟩
    S.compute (fun b v => b + v 0) S.s1 ≠ S.base + S.P S.n 0 := by
  intro S h
  have : S.compute (fun b v => b + v 0) S.s1 = 0 := by
    show S.base + S.velocity (S.param S.s1) 0 = 0
    rw [velocity_eq]
    simp [S, curve, Spl.param, Finset.sum_range_succ, bernsteinPolynomial.eval_at_0]
  rw [this] at h
  simp [S] at h

theorem iteratedDeriv_curve (p : ℝ[X]) (s0 L : ℝ) (k : ℕ) :
    iteratedDeriv k (fun s => p.eval ((s - s0) / L)) = fun s => (derivative^[k] p).eval ((s - s0) / L) / L ^ k := by
  induction k with
  | zero => funext s; simp
  | succ k ih =>
    rw [iteratedDeriv_succ, ih]
    funext s
    have h1 : HasDerivAt (fun s => (s - s0) / L) (1 / L) s := ((hasDerivAt_id s).sub_const s0).div_const L
    have h2 := HasDerivAt.comp s ((derivative^[k] p).hasDerivAt ((s - s0) / L)) h1
    have h3 := h2.div_const (L ^ k)
    have : deriv (fun s => (derivative^[k] p).eval ((s - s0) / L) / L ^ k) s = eval ((s - s0) / L) (Polynomial.derivative (derivative^[k] p)) * (1 / L) / L ^ k := h3.deriv
    rw [this, Function.iterate_succ_apply']
    rw [pow_succ, mul_one_div, div_div, mul_comm L]

/-- C54: `derivative` of any order in the range of `powersOfT_` is the derivative of the curve of the tangent space. -/
theorem C54_derivative (S : Spl Q) (h : S.s0 < S.s1) (order : ℕ) (ho : order ≤ 2 * (S.n + 1)) (s : ℝ) (d : ℕ) :
    S.derivative s order d = some (iteratedDeriv order (fun s => (curve S.n S.P d).eval ((s - S.s0) / (S.s1 - S.s0))) s) := by
  have hL : 0 < S.s1 - S.s0 := by linarith
  unfold Spl.derivative
  rw [if_neg hL.ne', if_neg (by omega), iteratedDeriv_curve]
  congr 1
  unfold curve
  show _ = eval ((s - S.s0) / (S.s1 - S.s0)) _ / (S.s1 - S.s0) ^ order
  rw [Polynomial.iterate_derivative_sum, eval_finsetSum, Finset.sum_div]
  refine Finset.sum_congr rfl fun i hi => ?_
  rw [C54_basis _ _ _ _ (Nat.lt_succ_iff.1 (Finset.mem_range.1 hi)), Polynomial.iterate_derivative_C_mul]
  simp [mul_div_assoc]

/-- C54: derivatives of high order are not zero but read out of range. -/
theorem C54_order_counterexample (S : Spl Q) (h : S.s0 < S.s1) (s : ℝ) (d : ℕ) : S.derivative s (2 * S.n + 3) d = none := by
  unfold Spl.derivative
  rw [if_neg (by linarith), if_pos (by omega)]

theorem basis_one_abs (n i : ℕ) (hi : i ≤ n) (u : ℝ) (h0 : 0 ≤ u) (h1 : u ≤ 1) : |basis n 1 u i| ≤ n := by
  rw [C54_basis n 1 u i hi]
  simp only [Function.iterate_one]
  rw [derivative_bern, eval_mul, eval_natCast, eval_sub, abs_mul, Nat.abs_cast]
  have hb : 0 ≤ (bi (n - 1) i 1).eval u ∧ (bi (n - 1) i 1).eval u ≤ 1 := by
    unfold bi
    split
    · exact ⟨bern_nonneg _ _ _ h0 h1, bern_le _ _ _ h0 h1⟩
    · simp
  have hc := bern_nonneg (n - 1) i u h0 h1
  have hd := bern_le (n - 1) i u h0 h1
  have : |(bi (n - 1) i 1).eval u - (bernsteinPolynomial ℝ (n - 1) i).eval u| ≤ 1 := by
    rw [abs_le]; constructor <;> linarith [hb.1, hb.2]
  calc (n : ℝ) * _ ≤ n * 1 := mul_le_mul_of_nonneg_left this (Nat.cast_nonneg n)
    _ = n := mul_one _

/-- C54: `maxVelocity` bounds the velocity on the whole range, for all degrees. -/
theorem C54_maxVelocity (S : Spl Q) (h : S.s0 < S.s1) (s : ℝ) (hs : S.s0 ≤ s ∧ s ≤ S.s1) (d : ℕ) :
    ∃ v, S.derivative s 1 d = some v ∧ |v| ≤ S.maxVelocity d := by
  have hL : 0 < S.s1 - S.s0 := by linarith
  unfold Spl.derivative
  rw [if_neg hL.ne', if_neg (by omega)]
  refine ⟨_, rfl, ?_⟩
  unfold Spl.maxVelocity
  refine le_trans (Finset.abs_sum_le_sum_abs _ _) (Finset.sum_le_sum fun i hi => ?_)
  have h0 : 0 ≤ (s - S.s0) / (S.s1 - S.s0) := div_nonneg (by linarith [hs.1]) hL.le
  have h1 : (s - S.s0) / (S.s1 - S.s0) ≤ 1 := by rw [div_le_one hL]; linarith [hs.2]
  have hb := basis_one_abs S.n i (Nat.lt_succ_iff.1 (Finset.mem_range.1 hi)) _ h0 h1
  rw [abs_mul, abs_div, pow_one, abs_of_pos hL, mul_comm]
  apply mul_le_mul_of_nonneg_right _ (abs_nonneg _)
  apply div_le_div_of_nonneg_right _ hL.le
  have : (0 : ℝ) ≤ S.n := Nat.cast_nonneg _
  linarith

/-- A cubic spline to which the theorems apply. -/
noncomputable def splEx : Spl ℝ := ⟨3, 0, fun i d => if d = 0 then i else 0, 0, 2⟩

example : splEx.s0 < splEx.s1 ∧ splEx.compute (fun b v => b + v 0) 2 = 3 := by
  refine ⟨by simp [splEx], ?_⟩
  have := (C54_value splEx (fun b v => b + v 0) (by simp [splEx])).2.2
  simpa [splEx] using this

end Verif.Spline
