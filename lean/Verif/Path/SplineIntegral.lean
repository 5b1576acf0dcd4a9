import Verif.Path.Spline
import Mathlib.MeasureTheory.Integral.IntervalIntegral.FundThmCalculus
import Mathlib.Topology.Algebra.Polynomial
import Mathlib.Analysis.Calculus.Deriv.Pow
import Mathlib.Analysis.Calculus.Deriv.Mul
import Mathlib.Tactic.NormNum
set_option linter.unusedSectionVars false

/-!
# Integral of the squared norm of derivatives of splines (C78)
-/
namespace Verif.Spline
open Polynomial

/-- Coefficient `i, j` of `integral (k, res)`: spline.cc:161-198. -/
noncomputable def integral (n k i j : ℕ) : ℝ :=
  if n < k then 0
  else
    (∑ p ∈ Finset.Icc (k + i - n) (min i k), ∑ q ∈ Finset.Icc (k + j - n) (min j k),
      sgn (2 * k - p - q) * (binom k p : ℝ) * (binom k q : ℝ) *
        (((binom (n - k) (i - p) * binom (n - k) (j - q) : ℕ) : ℝ) /
          ((binom (2 * (n - k)) (i - p + (j - q)) * (2 * (n - k) + 1) : ℕ) : ℝ))) *
      ((n.factorial / (n - k).factorial : ℕ) : ℝ)

variable {Q : Type}

/-- `squaredNormBasisFunctionIntegral`: spline.cc:336-350.  `none`: `powersOfT_` is read out of range. -/
noncomputable def Spl.Ic (S : Spl Q) (order i j : ℕ) : Option ℝ :=
  if 2 * (S.n + 1) + 1 ≤ max 1 (2 * order - 1) then none
  else if S.s1 - S.s0 = 0 then some 0
  else if 0 < order then some (integral S.n order i j / (S.s1 - S.s0) ^ (2 * order - 1))
  else some (integral S.n order i j * (S.s1 - S.s0))

/-- `squaredNormIntegral`: spline.cc:437-443, for a robot with `m` degrees of freedom.  `none` as for `Ic`. -/
noncomputable def Spl.squaredNormIntegral (S : Spl Q) (m order : ℕ) : Option ℝ :=
  if 2 * (S.n + 1) + 1 ≤ max 1 (2 * order - 1) then none
  else some (∑ i ∈ Finset.range (S.n + 1), ∑ j ∈ Finset.range (S.n + 1), (∑ d ∈ Finset.range m, S.P i d * S.P j d) * (S.Ic order i j).getD 0)

/-- Component of control point `j`, degree of freedom `d`, of `squaredNormIntegralDerivative`: spline.cc:446-452 (the matrix `tmp` is stored by
columns, one per control point). -/
noncomputable def Spl.squaredNormIntegralDerivative (S : Spl Q) (order j d : ℕ) : ℝ :=
  2 * ∑ i ∈ Finset.range (S.n + 1), S.P i d * (S.Ic order i j).getD 0

/-! ## Integrals of products of polynomials of Bernstein -/

theorem integral_beta (a b : ℕ) : ∫ x in (0 : ℝ)..1, x ^ a * (1 - x) ^ b = (a.factorial * b.factorial : ℝ) / ((a + b + 1).factorial : ℝ) := by
  induction b generalizing a with
  | zero =>
    have hd : ∀ x ∈ Set.uIcc (0 : ℝ) 1, HasDerivAt (fun x : ℝ => x ^ (a + 1) / ((a : ℝ) + 1)) (x ^ a * (1 - x) ^ 0) x := by
      intro x _
      have h1 : HasDerivAt (fun x : ℝ => x ^ (a + 1)) (((a + 1 : ℕ) : ℝ) * x ^ a) x := by
        simpa using hasDerivAt_pow (a + 1) x
      have h2 := h1.div_const ((a : ℝ) + 1)
      refine h2.congr_deriv ?_
      have : (a : ℝ) + 1 ≠ 0 := by positivity
      push_cast
      rw [mul_div_assoc, mul_comm, div_mul_cancel₀ _ this]
      simp
    rw [intervalIntegral.integral_eq_sub_of_hasDerivAt hd (by apply Continuous.intervalIntegrable; fun_prop)]
    rw [Nat.add_zero, Nat.factorial_succ]
    have h1 : ((a : ℝ) + 1) ≠ 0 := by positivity
    have h2 : (a.factorial : ℝ) ≠ 0 := by positivity
    push_cast
    simp
    field_simp
  | succ b ih =>
    have hd : ∀ x ∈ Set.uIcc (0 : ℝ) 1, HasDerivAt (fun x : ℝ => x ^ (a + 1) * (1 - x) ^ (b + 1))
        (((a : ℝ) + 1) * (x ^ a * (1 - x) ^ (b + 1)) - ((b : ℝ) + 1) * (x ^ (a + 1) * (1 - x) ^ b)) x := by
      intro x _
      have h1 : HasDerivAt (fun x : ℝ => x ^ (a + 1)) (((a + 1 : ℕ) : ℝ) * x ^ a) x := by
        simpa using hasDerivAt_pow (a + 1) x
      have h2 : HasDerivAt (fun x : ℝ => (1 - x) ^ (b + 1)) (((b + 1 : ℕ) : ℝ) * (1 - x) ^ b * (-1)) x := by
        have := ((hasDerivAt_id x).const_sub 1).fun_pow (b + 1)
        simpa using this
      refine (h1.fun_mul h2).congr_deriv ?_
      push_cast
      ring
    have hi := intervalIntegral.integral_eq_sub_of_hasDerivAt hd (by apply Continuous.intervalIntegrable; fun_prop)
    rw [intervalIntegral.integral_sub (by apply Continuous.intervalIntegrable; fun_prop) (by apply Continuous.intervalIntegrable; fun_prop),
      intervalIntegral.integral_const_mul, intervalIntegral.integral_const_mul, ih (a + 1)] at hi
    simp only [one_pow, sub_self, ne_eq, Nat.add_eq_zero_iff, one_ne_zero, and_false, not_false_eq_true, zero_pow, mul_zero, zero_mul] at hi
    have ha : (a : ℝ) + 1 ≠ 0 := by positivity
    have key : ∫ x in (0 : ℝ)..1, x ^ a * (1 - x) ^ (b + 1) = ((b : ℝ) + 1) * (((a + 1).factorial : ℝ) * (b.factorial : ℝ) / ((a + 1 + b + 1).factorial : ℝ)) / ((a : ℝ) + 1) := by
      field_simp
      field_simp at hi
      linarith
    rw [key, show a + (b + 1) + 1 = a + 1 + b + 1 by ring, Nat.factorial_succ a, Nat.factorial_succ b]
    push_cast
    field_simp

theorem integral_bern (m i j : ℕ) (hi : i ≤ m) (hj : j ≤ m) :
    ∫ x in (0 : ℝ)..1, (bernsteinPolynomial ℝ m i).eval x * (bernsteinPolynomial ℝ m j).eval x =
      ((m.choose i * m.choose j : ℕ) : ℝ) / (((2 * m).choose (i + j) * (2 * m + 1) : ℕ) : ℝ) := by
  have e : (fun x : ℝ => (bernsteinPolynomial ℝ m i).eval x * (bernsteinPolynomial ℝ m j).eval x) =
      fun x => ((m.choose i * m.choose j : ℕ) : ℝ) * (x ^ (i + j) * (1 - x) ^ (2 * m - (i + j))) := by
    funext x
    rw [bernsteinPolynomial.eq_1, bernsteinPolynomial.eq_1]
    simp only [eval_mul, eval_natCast, eval_pow, eval_X, eval_sub, eval_one]
    rw [show 2 * m - (i + j) = (m - i) + (m - j) by omega, pow_add, pow_add]
    push_cast
    ring
  rw [e, intervalIntegral.integral_const_mul, integral_beta, show i + j + (2 * m - (i + j)) + 1 = 2 * m + 1 by omega]
  have hc := Nat.choose_mul_factorial_mul_factorial (show i + j ≤ 2 * m by omega)
  have hc' : ((2 * m).choose (i + j) : ℝ) * ((i + j).factorial : ℝ) * ((2 * m - (i + j)).factorial : ℝ) = ((2 * m).factorial : ℝ) := by
    exact_mod_cast hc
  rw [mul_div_assoc']
  have h0 : ((2 * m).choose (i + j) : ℝ) ≠ 0 := by
    have := Nat.choose_pos (show i + j ≤ 2 * m by omega)
    positivity
  have h1 : ((2 * m + 1).factorial : ℝ) = (2 * m + 1) * ((2 * m).factorial : ℝ) := by rw [Nat.factorial_succ]; push_cast; ring
  have h2 : ((2 * m).factorial : ℝ) ≠ 0 := by positivity
  have h3 : (2 * (m : ℝ) + 1) ≠ 0 := by positivity
  rw [h1, ← hc']
  have h4 : ((i + j).factorial : ℝ) ≠ 0 := by positivity
  have h5 : ((2 * m - (i + j)).factorial : ℝ) ≠ 0 := by positivity
  push_cast
  field_simp

theorem eval_iterate_bern (n k i : ℕ) (hk : k ≤ n) (t : ℝ) : (derivative^[k] (bernsteinPolynomial ℝ n i)).eval t =
    (n.descFactorial k : ℝ) * ∑ p ∈ Finset.Icc (k + i - n) (min i k), sgn (k - p) * (k.choose p : ℝ) * (bernsteinPolynomial ℝ (n - k) (i - p)).eval t := by
  rw [iterate_bern, eval_mul, eval_C, eval_finsetSum]
  congr 1
  have hsub : Finset.Icc (k + i - n) (min i k) ⊆ Finset.range (k + 1) := by
    intro p hp
    rw [Finset.mem_Icc] at hp
    rw [Finset.mem_range]; omega
  rw [← Finset.sum_subset hsub]
  · refine Finset.sum_congr rfl fun p hp => ?_
    rw [Finset.mem_Icc] at hp
    have hpi : p ≤ i := by omega
    have hpk : p ≤ k := by omega
    have e : bi (n - k) i p = bernsteinPolynomial ℝ (n - k) (i - p) := if_pos hpi
    rw [eval_mul, eval_C, e, sgn_eq]
    have hs : (-1 : ℝ) ^ (k + p) = (-1) ^ (k - p) := by
      have : k + p = (k - p) + 2 * p := by omega
      rw [this, pow_add, pow_mul]; norm_num
    rw [hs]
  · intro p hp hnp
    rw [Finset.mem_range] at hp
    rw [Finset.mem_Icc] at hnp
    have : bi (n - k) i p = 0 := by
      unfold bi
      by_cases hpi : p ≤ i
      · rw [if_pos hpi]
        apply bernsteinPolynomial.eq_zero_of_lt
        omega
      · rw [if_neg hpi]
    rw [this]; simp

/-- The coefficients computed by the code, for all degrees and orders: `integral` of the product of the derivatives, divided by `n! / (n - k)!`. -/
theorem integral_spec (n k i j : ℕ) (hk : k ≤ n) (hi : i ≤ n) (hj : j ≤ n) :
    (n.descFactorial k : ℝ) * integral n k i j =
      ∫ x in (0 : ℝ)..1, (derivative^[k] (bernsteinPolynomial ℝ n i)).eval x * (derivative^[k] (bernsteinPolynomial ℝ n j)).eval x := by
  have hfun : (fun x : ℝ => (derivative^[k] (bernsteinPolynomial ℝ n i)).eval x * (derivative^[k] (bernsteinPolynomial ℝ n j)).eval x) =
      fun x => ∑ p ∈ Finset.Icc (k + i - n) (min i k), ∑ q ∈ Finset.Icc (k + j - n) (min j k),
        ((n.descFactorial k : ℝ) ^ 2 * (sgn (k - p) * (k.choose p : ℝ)) * (sgn (k - q) * (k.choose q : ℝ))) *
          ((bernsteinPolynomial ℝ (n - k) (i - p)).eval x * (bernsteinPolynomial ℝ (n - k) (j - q)).eval x) := by
    funext x
    rw [eval_iterate_bern n k i hk, eval_iterate_bern n k j hk, Finset.mul_sum, Finset.mul_sum, Finset.sum_mul_sum]
    refine Finset.sum_congr rfl fun p _ => Finset.sum_congr rfl fun q _ => ?_
    ring
  have hcont : ∀ p : ℝ[X], Continuous fun x : ℝ => p.eval x := fun p => p.continuous
  rw [hfun, intervalIntegral.integral_finsetSum]
  · unfold integral
    rw [if_neg (by omega)]
    have hdf : ((n.factorial / (n - k).factorial : ℕ) : ℝ) = (n.descFactorial k : ℝ) := by
      rw [Nat.descFactorial_eq_div hk]
    rw [hdf, mul_comm, mul_assoc, ← pow_two, Finset.sum_mul]
    refine Finset.sum_congr rfl fun p hp => ?_
    rw [intervalIntegral.integral_finsetSum]
    · rw [Finset.sum_mul]
      refine Finset.sum_congr rfl fun q hq => ?_
      rw [Finset.mem_Icc] at hp hq
      rw [intervalIntegral.integral_const_mul, integral_bern _ _ _ (by omega) (by omega)]
      rw [binom_eq (show p ≤ k by omega), binom_eq (show q ≤ k by omega), binom_eq (show i - p ≤ n - k by omega),
        binom_eq (show j - q ≤ n - k by omega), binom_eq (show i - p + (j - q) ≤ 2 * (n - k) by omega)]
      rw [sgn_eq, sgn_eq, sgn_eq, show 2 * k - p - q = (k - p) + (k - q) by omega, pow_add]
      ring
    · intro q _
      exact (continuous_const.mul ((hcont _).mul (hcont _))).intervalIntegrable _ _
  · intro p _
    exact (continuous_finsetSum _ fun q _ => continuous_const.mul ((hcont _).mul (hcont _))).intervalIntegrable _ _

/-- Spec: integral of the squared norm of the derivative of order `k` of the curve of the tangent space. -/
noncomputable def Spl.normIntegral (S : Spl Q) (m k : ℕ) : ℝ :=
  ∫ s in S.s0..S.s1, ∑ d ∈ Finset.range m, (iteratedDeriv k (fun s => (curve S.n S.P d).eval ((s - S.s0) / (S.s1 - S.s0))) s) ^ 2

theorem normIntegral_eq (S : Spl Q) (h : S.s0 < S.s1) (m k : ℕ) :
    S.normIntegral m k = (S.s1 - S.s0) / (S.s1 - S.s0) ^ (2 * k) *
      ∑ i ∈ Finset.range (S.n + 1), ∑ j ∈ Finset.range (S.n + 1), (∑ d ∈ Finset.range m, S.P i d * S.P j d) *
        ∫ x in (0 : ℝ)..1, (derivative^[k] (bernsteinPolynomial ℝ S.n i)).eval x * (derivative^[k] (bernsteinPolynomial ℝ S.n j)).eval x := by
  have hL : 0 < S.s1 - S.s0 := by linarith
  generalize hLe : S.s1 - S.s0 = L at *
  unfold Spl.normIntegral
  rw [hLe]
  have e1 : (fun s => ∑ d ∈ Finset.range m, (iteratedDeriv k (fun s => (curve S.n S.P d).eval ((s - S.s0) / L)) s) ^ 2) =
      fun s => (fun x => 1 / L ^ (2 * k) * ∑ d ∈ Finset.range m, (derivative^[k] (curve S.n S.P d)).eval x ^ 2) (s / L - S.s0 / L) := by
    funext s
    show _ = 1 / L ^ (2 * k) * ∑ d ∈ Finset.range m, (derivative^[k] (curve S.n S.P d)).eval (s / L - S.s0 / L) ^ 2
    rw [Finset.mul_sum]
    refine Finset.sum_congr rfl fun d _ => ?_
    rw [iteratedDeriv_curve, ← sub_div, div_pow, ← pow_mul, mul_comm k 2]
    ring
  rw [e1]
  refine (intervalIntegral.integral_comp_div_sub (a := S.s0) (b := S.s1) (fun x => 1 / L ^ (2 * k) * ∑ d ∈ Finset.range m, (derivative^[k] (curve S.n S.P d)).eval x ^ 2) hL.ne' (S.s0 / L)).trans ?_
  rw [← sub_div, ← sub_div, sub_self, zero_div, hLe, div_self hL.ne',
    intervalIntegral.integral_const_mul]
  rw [smul_eq_mul, ← mul_assoc, mul_one_div]
  congr 1
  have hcont : ∀ p : ℝ[X], Continuous fun x : ℝ => p.eval x := fun p => p.continuous
  have e2 : (fun x : ℝ => ∑ d ∈ Finset.range m, (derivative^[k] (curve S.n S.P d)).eval x ^ 2) =
      fun x => ∑ i ∈ Finset.range (S.n + 1), ∑ j ∈ Finset.range (S.n + 1), (∑ d ∈ Finset.range m, S.P i d * S.P j d) *
        ((derivative^[k] (bernsteinPolynomial ℝ S.n i)).eval x * (derivative^[k] (bernsteinPolynomial ℝ S.n j)).eval x) := by
    funext x
    have : ∀ d ∈ Finset.range m, (derivative^[k] (curve S.n S.P d)).eval x ^ 2 =
        ∑ i ∈ Finset.range (S.n + 1), ∑ j ∈ Finset.range (S.n + 1), (S.P i d * S.P j d) *
          ((derivative^[k] (bernsteinPolynomial ℝ S.n i)).eval x * (derivative^[k] (bernsteinPolynomial ℝ S.n j)).eval x) := by
      intro d _
      have hc : (derivative^[k] (curve S.n S.P d)).eval x = ∑ i ∈ Finset.range (S.n + 1), S.P i d * (derivative^[k] (bernsteinPolynomial ℝ S.n i)).eval x := by
        unfold curve
        rw [Polynomial.iterate_derivative_sum, eval_finsetSum]
        refine Finset.sum_congr rfl fun i _ => ?_
        rw [Polynomial.iterate_derivative_C_mul]; simp
      rw [hc, pow_two, Finset.sum_mul_sum]
      refine Finset.sum_congr rfl fun i _ => Finset.sum_congr rfl fun j _ => ?_
      ring
    rw [Finset.sum_congr rfl this, Finset.sum_comm]
    refine Finset.sum_congr rfl fun i _ => ?_
    rw [Finset.sum_comm]
    refine Finset.sum_congr rfl fun j _ => ?_
    rw [Finset.sum_mul]
  rw [e2, intervalIntegral.integral_finsetSum]
  · refine Finset.sum_congr rfl fun i _ => ?_
    rw [intervalIntegral.integral_finsetSum]
    · refine Finset.sum_congr rfl fun j _ => ?_
      rw [intervalIntegral.integral_const_mul]
    · intro j _
      exact (continuous_const.mul ((hcont _).mul (hcont _))).intervalIntegrable _ _
  · intro i _
    exact (continuous_finsetSum _ fun j _ => continuous_const.mul ((hcont _).mul (hcont _))).intervalIntegrable _ _

/-- C78 (partial): what `squaredNormIntegral` returns, for all degrees, control points and orders: the integral of the squared norm, divided by
`n! / (n - order)!`.  Missing: this factor, hence the claim holds for order 0 only. -/
theorem C78_integral_partial (S : Spl Q) (h : S.s0 < S.s1) (m order : ℕ) (ho : order ≤ S.n) :
    ∃ r, S.squaredNormIntegral m order = some r ∧ (S.n.descFactorial order : ℝ) * r = S.normIntegral m order := by
  have hL : 0 < S.s1 - S.s0 := by linarith
  unfold Spl.squaredNormIntegral
  rw [if_neg (by omega)]
  refine ⟨_, rfl, ?_⟩
  rw [normIntegral_eq S h, Finset.mul_sum, Finset.mul_sum]
  refine Finset.sum_congr rfl fun i hi => ?_
  rw [Finset.mul_sum, Finset.mul_sum]
  refine Finset.sum_congr rfl fun j hj => ?_
  rw [← integral_spec S.n order i j ho (Nat.lt_succ_iff.1 (Finset.mem_range.1 hi)) (Nat.lt_succ_iff.1 (Finset.mem_range.1 hj))]
  have hI : (S.Ic order i j).getD 0 = (S.s1 - S.s0) / (S.s1 - S.s0) ^ (2 * order) * integral S.n order i j := by
    unfold Spl.Ic
    rw [if_neg (by omega), if_neg hL.ne']
    by_cases h0 : 0 < order
    · rw [if_pos h0]
      simp only [Option.getD_some]
      have : (S.s1 - S.s0) ^ (2 * order) = (S.s1 - S.s0) ^ (2 * order - 1) * (S.s1 - S.s0) := by
        rw [← pow_succ]; congr 1; omega
      rw [this]
      field_simp
    · rw [if_neg h0]
      have : order = 0 := by omega
      subst this
      simp only [Option.getD_some, mul_zero, pow_zero, div_one]
      ring
  rw [hI]
  ring

/-- C78: the powers of the duration are read out of range exactly for orders beyond the degree plus one; the squared norm of derivatives of order the
degree plus one, which are null, is null. -/
theorem C78_range (S : Spl Q) (m order : ℕ) :
    (S.squaredNormIntegral m order = none ↔ S.n + 2 ≤ order) ∧ (order = S.n + 1 → S.squaredNormIntegral m order = some 0) := by
  have key : 2 * (S.n + 1) + 1 ≤ max 1 (2 * order - 1) ↔ S.n + 2 ≤ order := by omega
  unfold Spl.squaredNormIntegral
  constructor
  · by_cases h : S.n + 2 ≤ order
    · rw [if_pos (key.2 h)]; simp [h]
    · rw [if_neg (fun h' => h (key.1 h'))]; simp [h]
  · intro h
    rw [if_neg (fun h' => by have := key.1 h'; omega)]
    congr 1
    refine Finset.sum_eq_zero fun i _ => Finset.sum_eq_zero fun j _ => ?_
    have h0 : integral S.n order i j = 0 := by unfold integral; rw [if_pos (by omega)]
    have : (S.Ic order i j).getD 0 = 0 := by
      unfold Spl.Ic
      rw [h0, if_neg (fun h' => by have := key.1 h'; omega)]
      by_cases h1 : S.s1 - S.s0 = 0
      · rw [if_pos h1]; rfl
      · rw [if_neg h1, if_pos (by omega)]; simp
    rw [this, mul_zero]

/-- C78: for order 0 the result is the integral. -/
theorem C78_order0 (S : Spl Q) (h : S.s0 < S.s1) (m : ℕ) : S.squaredNormIntegral m 0 = some (S.normIntegral m 0) := by
  obtain ⟨r, hr, he⟩ := C78_integral_partial S h m 0 (Nat.zero_le _)
  rw [hr, ← he]; simp

/-- A spline to witness the wrong factor: a cubic with one non null control point. -/
noncomputable def cubic : Spl ℝ := ⟨3, 0, fun i _ => if i = 0 then 1 else 0, 0, 1⟩

/-- C78: for order 1, the result is not the integral. -/
theorem C78_order1_counterexample : ∃ r, cubic.squaredNormIntegral 1 1 = some r ∧ r ≠ cubic.normIntegral 1 1 ∧ r = 3 / 5 := by
  obtain ⟨r, hr, he⟩ := C78_integral_partial cubic (by simp [cubic]) 1 1 (by simp [cubic])
  have h0 : r = 3 / 5 := by
    unfold Spl.squaredNormIntegral at hr
    rw [if_neg (by simp [cubic])] at hr
    have hr' := Option.some.inj hr
    rw [← hr']
    have hI : (cubic.Ic 1 0 0).getD 0 = 3 / 5 := by
      norm_num [cubic, Spl.Ic, integral, sgn, binom, Nat.factorial]
    rw [Finset.sum_eq_single 0, Finset.sum_eq_single 0, hI]
    · simp [cubic]
    · intro j _ hj; simp [cubic, hj]
    · intro hj; simp at hj
    · intro i _ hi
      exact Finset.sum_eq_zero fun j _ => by simp [cubic, hi]
    · intro hj; simp at hj
  refine ⟨r, hr, ?_, h0⟩
  rw [← he, h0]
  norm_num [cubic, Nat.descFactorial]

theorem integral_symm (n k i j : ℕ) : integral n k i j = integral n k j i := by
  unfold integral
  split
  · rfl
  · congr 1
    rw [Finset.sum_comm]
    refine Finset.sum_congr rfl fun p _ => Finset.sum_congr rfl fun q _ => ?_
    rw [show 2 * k - q - p = 2 * k - p - q by omega, Nat.add_comm (i - q) (j - p), Nat.mul_comm (binom (n - k) (i - q))]
    ring

theorem Ic_symm (S : Spl Q) (k i j : ℕ) : S.Ic k i j = S.Ic k j i := by
  unfold Spl.Ic
  rw [integral_symm]

/-- C78: `squaredNormIntegralDerivative` is the gradient of `squaredNormIntegral` with respect to the control points: the cost of `P + D` is the
cost of `P`, plus the product of the gradient by `D`, plus the cost of `D`. -/
theorem C78_gradient (S : Spl Q) (D : ℕ → ℕ → ℝ) (m order : ℕ) (a b c : ℝ) (ha : S.squaredNormIntegral m order = some a)
    (hb : ({S with P := D} : Spl Q).squaredNormIntegral m order = some b)
    (hc : ({S with P := fun i d => S.P i d + D i d} : Spl Q).squaredNormIntegral m order = some c) :
    c = a + (∑ j ∈ Finset.range (S.n + 1), ∑ d ∈ Finset.range m, S.squaredNormIntegralDerivative order j d * D j d) + b := by
  unfold Spl.squaredNormIntegral at ha hb hc
  split at ha
  · exact absurd ha (by simp)
  rename_i hn
  rw [if_neg hn] at hb hc
  have ha' := Option.some.inj ha
  have hb' := Option.some.inj hb
  have hc' := Option.some.inj hc
  rw [← ha', ← hb', ← hc']
  have hI : ∀ (P : ℕ → ℕ → ℝ) i j, (({S with P := P} : Spl Q).Ic order i j).getD 0 = (S.Ic order i j).getD 0 := fun _ _ _ => rfl
  simp only [hI]
  have hg : ∑ j ∈ Finset.range (S.n + 1), ∑ d ∈ Finset.range m, S.squaredNormIntegralDerivative order j d * D j d =
      ∑ i ∈ Finset.range (S.n + 1), ∑ j ∈ Finset.range (S.n + 1), ((∑ d ∈ Finset.range m, S.P i d * D j d) + ∑ d ∈ Finset.range m, D i d * S.P j d) * (S.Ic order i j).getD 0 := by
    have h1 : ∀ j ∈ Finset.range (S.n + 1), ∑ d ∈ Finset.range m, S.squaredNormIntegralDerivative order j d * D j d =
        ∑ i ∈ Finset.range (S.n + 1), 2 * ((∑ d ∈ Finset.range m, S.P i d * D j d) * (S.Ic order i j).getD 0) := by
      intro j _
      unfold Spl.squaredNormIntegralDerivative
      simp only [Finset.mul_sum, Finset.sum_mul]
      rw [Finset.sum_comm]
      exact Finset.sum_congr rfl fun i _ => Finset.sum_congr rfl fun d _ => by ring
    rw [Finset.sum_congr rfl h1]
    simp only [add_mul, Finset.sum_add_distrib, two_mul]
    congr 1
    · rw [Finset.sum_comm]
    · refine Finset.sum_congr rfl fun i _ => Finset.sum_congr rfl fun j _ => ?_
      rw [Ic_symm S order j i]
      congr 1
      exact Finset.sum_congr rfl fun d _ => by ring
  rw [hg, ← Finset.sum_add_distrib, ← Finset.sum_add_distrib]
  refine Finset.sum_congr rfl fun i _ => ?_
  rw [← Finset.sum_add_distrib, ← Finset.sum_add_distrib]
  refine Finset.sum_congr rfl fun j _ => ?_
  rw [← add_mul, ← add_mul, ← Finset.sum_add_distrib, ← Finset.sum_add_distrib, ← Finset.sum_add_distrib]
  congr 1
  exact Finset.sum_congr rfl fun d _ => by ring

example : cubic.s0 < cubic.s1 ∧ 1 ≤ cubic.n ∧ ∃ a, cubic.squaredNormIntegral 1 1 = some a := by
  refine ⟨by simp [cubic], by simp [cubic], 3 / 5, ?_⟩
  obtain ⟨r, h1, _, h2⟩ := C78_order1_counterexample
  rw [h1, h2]

end Verif.Spline
