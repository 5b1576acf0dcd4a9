import Mathlib.Algebra.Polynomial.Derivative
import Mathlib.Analysis.Calculus.Deriv.Polynomial
import Mathlib.Analysis.Calculus.Deriv.MeanValue
import Mathlib.Tactic.Linarith
import Mathlib.Tactic.Ring
import Mathlib.Tactic.FieldSimp
set_option linter.unusedSectionVars false

/-!
# `timeParameterization::Polynomial` (C51, C75)
-/
namespace Verif.TimeParam
open Polynomial

variable {K : Type} [Field K]

inductive Err where
  | invalid
  | logic
  | runtime
deriving DecidableEq, Repr

/-- The loop of `val`: polynomial.hh:100-107; the list is the coefficients from rank `i`. -/
def valLoop (t : K) : List K → K → K → K
  | [], _, res => res
  | c :: l, tn, res => valLoop t l (tn * t) (res + c * (tn * t))

/-- `val`: polynomial.hh:100-109.  An empty vector of coefficients is not modelled (the code reads `a [0]`). -/
def val (a : List K) (t : K) : K :=
  match a with
  | [] => 0
  | a0 :: l => valLoop t l 1 a0

/-- Table of factorials: path/math.hh:43-50. -/
def factorials : Nat → Nat
  | 0 => 1
  | i + 1 => factorials i * (i + 1)

/-- The loop of `Jac`: polynomial.hh:124-129, from rank `i`; the quotient of factorials is a quotient of integers. -/
def jacLoop (t : K) (order : Nat) : Nat → List K → K → K → K
  | _, [], _, res => res
  | i, c :: l, tn, res => jacLoop t order (i + 1) l (tn * t) (res + ((factorials i / factorials (i - order) : Nat) : K) * c * tn)

/-- `Jac (t, order)`: polynomial.hh:113-131. -/
def jac (a : List K) (t : K) (order : Nat) : Except Err K :=
  if a.length ≤ order then .ok 0
  else if 10 < a.length then .error .invalid
  else .ok (jacLoop t order order (a.drop order) 1 0)

/-- `fabs (Jac (t))` used in `derivativeBound`; `Jac` does not throw there, the size is at most 4. -/
def jac1 (a : List K) (t : K) : K :=
  match jac a t 1 with
  | .ok v => v
  | .error _ => 0

/-- `derivativeBound`: polynomial.hh:75-97.  When `a [3] = 0` the quotient is infinite or not a number, both comparisons with it cannot be true. -/
def derivativeBound [LinearOrder K] (a : List K) (low up : K) : Except Err K :=
  match a with
  | [_, a1] => .ok |a1|
  | [_, _, _] => .ok (max |jac1 a low| |jac1 a up|)
  | [_, a1, a2, a3] =>
    let xm := -a2 / (3 * a3)
    let M := max |jac1 a low| |jac1 a up|
    if a3 ≠ 0 ∧ low < xm ∧ xm < up then .ok (max M |a1 - a2 / 3 * a3|) else .ok M
  | _ => .error .logic

/-! ## Specification -/

/-- The polynomial with these coefficients. -/
noncomputable def toPoly : List K → K[X]
  | [] => 0
  | c :: l => C c + X * toPoly l

theorem valLoop_eq (t : K) (l : List K) (tn res : K) : valLoop t l tn res = res + tn * t * (toPoly l).eval t := by
  induction l generalizing tn res with
  | nil => simp [valLoop, toPoly]
  | cons c l ih =>
    rw [valLoop, ih, toPoly]
    simp only [eval_add, eval_C, eval_mul, eval_X]
    ring

theorem val_eq (a : List K) (t : K) : val a t = (toPoly a).eval t := by
  cases a with
  | nil => simp [val, toPoly]
  | cons c l =>
    rw [val, valLoop_eq, toPoly]
    simp

theorem factorials_eq (i : Nat) : factorials i = i.factorial := by
  induction i with
  | zero => rfl
  | succ i ih => rw [factorials, ih, Nat.factorial_succ, Nat.mul_comm]

theorem jacLoop_eq (t : K) (k : Nat) (l : List K) (i : Nat) (hi : k ≤ i) (tn res : K) (htn : tn = t ^ (i - k)) :
    jacLoop t k i l tn res = res + (derivative^[k] (X ^ i * toPoly l)).eval t := by
  induction l generalizing i tn res with
  | nil => simp [jacLoop, toPoly]
  | cons c l ih =>
    rw [jacLoop, ih (i + 1) (by omega) _ _ (by rw [htn, ← pow_succ]; congr 1; omega), toPoly]
    have hX : X ^ i * (C c + X * toPoly l) = C c * X ^ i + X ^ (i + 1) * toPoly l := by rw [pow_succ]; ring
    rw [hX, iterate_map_add, iterate_derivative_C_mul, iterate_derivative_X_pow_eq_C_mul]
    simp only [eval_add, eval_mul, eval_C, eval_pow, eval_X]
    rw [factorials_eq, factorials_eq, ← Nat.descFactorial_eq_div hi, htn]
    ring

theorem drop_derivative (k : Nat) (l : List K) (i : Nat) (hi : i ≤ k) :
    derivative^[k] (X ^ i * toPoly l) = derivative^[k] (X ^ k * toPoly (l.drop (k - i))) := by
  induction l generalizing i with
  | nil => simp [toPoly]
  | cons c l ih =>
    rcases Nat.eq_or_lt_of_le hi with h | h
    · subst h; simp
    · have hX : X ^ i * (C c + X * toPoly l) = C c * X ^ i + X ^ (i + 1) * toPoly l := by rw [pow_succ]; ring
      rw [toPoly, hX, iterate_map_add, iterate_derivative_C_mul, iterate_derivative_X_pow_eq_C_mul,
        Nat.descFactorial_of_lt h, ih (i + 1) h]
      rw [show k - i = (k - (i + 1)) + 1 from by omega]
      simp

/-- C75: `value` is the polynomial, and `derivative` of order `k` its `k`-th derivative, for at most 10 coefficients; with more, derivatives
of an order below the number of coefficients throw. -/
theorem C75_polynomial (a : List K) (t : K) (k : Nat) :
    val a t = (toPoly a).eval t ∧
    (a.length ≤ 10 → jac a t k = .ok ((derivative^[k] (toPoly a)).eval t)) ∧
    (10 < a.length → k < a.length → jac a t k = .error .invalid) := by
  refine ⟨val_eq a t, fun h => ?_, fun h hk => ?_⟩
  · unfold jac
    have hd := drop_derivative k a 0 (Nat.zero_le k)
    simp only [pow_zero, one_mul, Nat.sub_zero] at hd
    by_cases hl : a.length ≤ k
    · rw [if_pos hl, hd, List.drop_eq_nil_of_le hl]
      simp [toPoly]
    · rw [if_neg hl, if_neg (by omega), jacLoop_eq t k (a.drop k) k (le_refl k) 1 0 (by simp), hd, zero_add]
  · unfold jac
    rw [if_neg (by omega), if_pos h]

/-- Over the reals: `derivative (t, 1)` is the derivative of `value`. -/
theorem hasDeriv (a : List ℝ) (h : a.length ≤ 10) (t v : ℝ) (hv : jac a t 1 = .ok v) : HasDerivAt (val a) v t := by
  have h1 := (C75_polynomial a t 1).2.1 h
  rw [hv] at h1
  have h2 : v = ((toPoly a).derivative).eval t := by
    have := Except.ok.inj h1
    simpa using this
  have h3 : val a = fun t => (toPoly a).eval t := funext (val_eq a)
  rw [h3, h2]
  exact (toPoly a).hasDerivAt t

/-- C75 (calculus): derivatives of all orders in the sense of analysis. -/
theorem C75_hasDeriv (a : List ℝ) (h : a.length ≤ 10) (k : Nat) (t : ℝ) :
    ∃ f : ℝ → ℝ, (∀ x, jac a x k = .ok (f x)) ∧ (∃ v, jac a t (k + 1) = .ok v ∧ HasDerivAt f v t) ∧ (k = 0 → f = val a) := by
  refine ⟨fun x => (derivative^[k] (toPoly a)).eval x, fun x => (C75_polynomial a x k).2.1 h, ?_, ?_⟩
  · refine ⟨_, (C75_polynomial a t (k + 1)).2.1 h, ?_⟩
    rw [Function.iterate_succ_apply']
    exact (derivative^[k] (toPoly a)).hasDerivAt t
  · rintro rfl
    exact (funext (val_eq a)).symm

/-! ## The bound of the derivative -/

section
variable [LinearOrder K] [IsStrictOrderedRing K]

theorem jac_two (a0 a1 t : K) : jac [a0, a1] t 1 = .ok a1 := by
  simp [jac, jacLoop, factorials]

theorem jac_three (a0 a1 a2 t : K) : jac [a0, a1, a2] t 1 = .ok (a1 + 2 * a2 * t) := by
  simp [jac, jacLoop, factorials]

theorem jac_four (a0 a1 a2 a3 t : K) : jac [a0, a1, a2, a3] t 1 = .ok (a1 + 2 * a2 * t + 3 * a3 * t ^ 2) := by
  rw [show jac [a0, a1, a2, a3] t 1 = .ok (0 + ((1 : Nat) : K) * a1 * 1 + ((2 : Nat) : K) * a2 * (1 * t) + ((3 : Nat) : K) * a3 * (1 * t * t)) from rfl]
  congr 1
  push_cast
  ring

/-- A function that is affine between its values at the ends is bounded by them. -/
theorem affine_bound (b c low up t : K) (h1 : low ≤ t) (h2 : t ≤ up) : |b + c * t| ≤ max |b + c * low| |b + c * up| := by
  rcases le_total 0 c with hc | hc
  · have e1 := mul_le_mul_of_nonneg_left h1 hc
    have e2 := mul_le_mul_of_nonneg_left h2 hc
    rw [abs_le]
    constructor
    · have := neg_le_neg (le_max_left |b + c * low| |b + c * up|)
      linarith [neg_abs_le (b + c * low)]
    · have := le_max_right |b + c * low| |b + c * up|
      linarith [le_abs_self (b + c * up)]
  · have e1 := mul_le_mul_of_nonpos_left h1 hc
    have e2 := mul_le_mul_of_nonpos_left h2 hc
    rw [abs_le]
    constructor
    · have := neg_le_neg (le_max_right |b + c * low| |b + c * up|)
      linarith [neg_abs_le (b + c * up)]
    · have := le_max_left |b + c * low| |b + c * up|
      linarith [le_abs_self (b + c * low)]

/-- A quadratic function that is monotone on the interval is bounded by the values at the ends. -/
theorem quadratic_bound (b c d low up t : K) (h1 : low ≤ t) (h2 : t ≤ up)
    (hm : (∀ x, low ≤ x → x ≤ up → 0 ≤ c + 2 * d * x) ∨ (∀ x, low ≤ x → x ≤ up → c + 2 * d * x ≤ 0)) :
    |b + c * t + d * t ^ 2| ≤ max |b + c * low + d * low ^ 2| |b + c * up + d * up ^ 2| := by
  have hlu : low ≤ up := le_trans h1 h2
  have hn2 : ∀ {x : K}, 0 ≤ x → 0 ≤ x / 2 := fun h => div_nonneg h (by norm_num)
  have dif : ∀ x y, (b + c * y + d * y ^ 2) - (b + c * x + d * x ^ 2) = (y - x) * ((c + 2 * d * x) / 2 + (c + 2 * d * y) / 2) := by
    intro x y; ring
  rcases hm with hm | hm
  · have e1 : b + c * low + d * low ^ 2 ≤ b + c * t + d * t ^ 2 := by
      have := dif low t
      have h3 := mul_nonneg (sub_nonneg.2 h1) (add_nonneg (hn2 (hm low (le_refl _) hlu)) (hn2 (hm t h1 h2)))
      linarith
    have e2 : b + c * t + d * t ^ 2 ≤ b + c * up + d * up ^ 2 := by
      have := dif t up
      have h3 := mul_nonneg (sub_nonneg.2 h2) (add_nonneg (hn2 (hm t h1 h2)) (hn2 (hm up hlu (le_refl _))))
      linarith
    rw [abs_le]
    constructor
    · have := neg_le_neg (le_max_left |b + c * low + d * low ^ 2| |b + c * up + d * up ^ 2|)
      linarith [neg_abs_le (b + c * low + d * low ^ 2)]
    · have := le_max_right |b + c * low + d * low ^ 2| |b + c * up + d * up ^ 2|
      linarith [le_abs_self (b + c * up + d * up ^ 2)]
  · have hn : ∀ x y, x ≤ y → low ≤ x → x ≤ up → low ≤ y → y ≤ up → b + c * y + d * y ^ 2 ≤ b + c * x + d * x ^ 2 := by
      intro x y hxy a1 a2 a3 a4
      have := dif x y
      have k1 := hm x a1 a2
      have k2 := hm y a3 a4
      have h3 := mul_nonpos_of_nonneg_of_nonpos (sub_nonneg.2 hxy)
        (show (c + 2 * d * x) / 2 + (c + 2 * d * y) / 2 ≤ 0 by linarith)
      linarith
    have e1 := hn low t h1 (le_refl _) hlu h1 h2
    have e2 := hn t up h2 h1 h2 hlu (le_refl _)
    rw [abs_le]
    constructor
    · have := neg_le_neg (le_max_right |b + c * low + d * low ^ 2| |b + c * up + d * up ^ 2|)
      linarith [neg_abs_le (b + c * up + d * up ^ 2)]
    · have := le_max_left |b + c * low + d * low ^ 2| |b + c * up + d * up ^ 2|
      linarith [le_abs_self (b + c * low + d * low ^ 2)]

/-- C51 (partial): the value returned by `derivativeBound` bounds the derivative on the interval for polynomials of degree 1 and 2, and for
those of degree 3 whose derivative has its extremum outside the open interval, or when the returned value happens to be at least the extremum.
Missing: degree 3 with the extremum inside (see the counterexamples). -/
theorem C51_derivativeBound_partial (a : List K) (low up B t v : K) (h1 : low ≤ t) (h2 : t ≤ up) (hB : derivativeBound a low up = .ok B)
    (hv : jac a t 1 = .ok v)
    (h4 : ∀ a0 a1 a2 a3, a = [a0, a1, a2, a3] → a3 ≠ 0 → low < -a2 / (3 * a3) → -a2 / (3 * a3) < up → |a1 - a2 ^ 2 / (3 * a3)| ≤ B) :
    |v| ≤ B := by
  match a, hB, hv, h4 with
  | [], hB, _, _ => simp [derivativeBound] at hB
  | [_], hB, _, _ => simp [derivativeBound] at hB
  | [a0, a1], hB, hv, _ =>
    rw [jac_two] at hv
    rw [← Except.ok.inj hv]
    exact le_of_eq (Except.ok.inj hB)
  | [a0, a1, a2], hB, hv, _ =>
    rw [jac_three] at hv
    rw [← Except.ok.inj hv, ← Except.ok.inj hB]
    simp only [jac1, jac_three]
    exact affine_bound a1 (2 * a2) low up t h1 h2
  | [a0, a1, a2, a3], hB, hv, h4 =>
    rw [jac_four] at hv
    rw [← Except.ok.inj hv]
    simp only [derivativeBound, jac1, jac_four] at hB
    have hM : max |a1 + 2 * a2 * low + 3 * a3 * low ^ 2| |a1 + 2 * a2 * up + 3 * a3 * up ^ 2| ≤ B := by
      split at hB
      · rw [← Except.ok.inj hB]; exact le_max_left _ _
      · rw [← Except.ok.inj hB]
    by_cases h3 : a3 = 0
    · refine le_trans ?_ hM
      have := affine_bound a1 (2 * a2) low up t h1 h2
      simpa [h3] using this
    · by_cases hin : low < -a2 / (3 * a3) ∧ -a2 / (3 * a3) < up
      · have hB' := h4 a0 a1 a2 a3 rfl h3 hin.1 hin.2
        -- on each side of the extremum the derivative is monotone
        set x := -a2 / (3 * a3) with hx
        have hax : a2 = -(3 * a3 * x) := by rw [hx]; field_simp
        have hval : a1 + 2 * a2 * x + 3 * a3 * x ^ 2 = a1 - a2 ^ 2 / (3 * a3) := by
          rw [hax]; field_simp; ring
        have der : ∀ y, 2 * a2 + 2 * (3 * a3) * y = 6 * a3 * (y - x) := by intro y; rw [hax]; ring
        rcases le_total t x with htx | htx
        · refine le_trans (quadratic_bound a1 (2 * a2) (3 * a3) low x t h1 htx ?_) (max_le (le_trans (le_max_left _ _) hM) (by rw [hval]; exact hB'))
          rcases le_total 0 a3 with ha | ha
          · right; intro y _ hy
            rw [der]
            exact mul_nonpos_of_nonneg_of_nonpos (by linarith) (sub_nonpos.2 hy)
          · left; intro y _ hy
            rw [der]
            exact mul_nonneg_of_nonpos_of_nonpos (by linarith) (sub_nonpos.2 hy)
        · refine le_trans (quadratic_bound a1 (2 * a2) (3 * a3) x up t htx h2 ?_) (max_le (by rw [hval]; exact hB') (le_trans (le_max_right _ _) hM))
          rcases le_total 0 a3 with ha | ha
          · left; intro y hy _
            rw [der]
            exact mul_nonneg (by linarith) (sub_nonneg.2 hy)
          · right; intro y hy _
            rw [der]
            exact mul_nonpos_of_nonpos_of_nonneg (by linarith) (sub_nonneg.2 hy)
      · refine le_trans (quadratic_bound a1 (2 * a2) (3 * a3) low up t h1 h2 ?_) hM
        set x := -a2 / (3 * a3) with hx
        have hax : a2 = -(3 * a3 * x) := by rw [hx]; field_simp
        have der : ∀ y, 2 * a2 + 2 * (3 * a3) * y = 6 * a3 * (y - x) := by intro y; rw [hax]; ring
        rw [not_and_or, not_lt, not_lt] at hin
        rcases hin with hl | hl <;> rcases le_total 0 a3 with ha | ha
        · left; intro y hy _
          rw [der]
          exact mul_nonneg (by linarith) (sub_nonneg.2 (le_trans hl hy))
        · right; intro y hy _
          rw [der]
          exact mul_nonpos_of_nonpos_of_nonneg (by linarith) (sub_nonneg.2 (le_trans hl hy))
        · right; intro y _ hy
          rw [der]
          exact mul_nonpos_of_nonneg_of_nonpos (by linarith) (sub_nonpos.2 (le_trans hy hl))
        · left; intro y _ hy
          rw [der]
          exact mul_nonneg_of_nonpos_of_nonpos (by linarith) (sub_nonpos.2 (le_trans hy hl))
  | _ :: _ :: _ :: _ :: _ :: _, hB, _, _ => simp [derivativeBound] at hB

end

/-- C51: the value returned for a polynomial of degree 3 may be much below the derivative: here 0.00002 instead of 0.15. -/
theorem C51_cubic_counterexample :
    derivativeBound ([0, 0, 3 / 100, -2 / 1000] : List ℚ) 0 10 = .ok (2 / 100000) ∧
    jac ([0, 0, 3 / 100, -2 / 1000] : List ℚ) 5 1 = .ok (15 / 100) := by
  constructor
  · simp only [derivativeBound, jac1, jac_four]
    rw [if_pos (by norm_num)]
    norm_num
  · rw [jac_four]; norm_num

/-- C51: polynomials of other degrees are refused, in particular those of degree 5 made by `SimpleTimeParameterization`. -/
theorem C51_quintic_counterexample (a0 a1 a2 a3 a4 a5 low up : ℚ) : derivativeBound [a0, a1, a2, a3, a4, a5] low up = .error .logic := rfl

/-- The hypotheses of `C51_derivativeBound_partial` hold for a cubic polynomial with its extremum at 5 on the interval from 6 to 10. -/
example : derivativeBound ([0, 0, 3 / 100, -2 / 1000] : List ℚ) 6 10 = .ok (144 / 1000) := by
  simp only [derivativeBound, jac1, jac_four]
  rw [if_neg (by norm_num)]
  norm_num

end Verif.TimeParam
