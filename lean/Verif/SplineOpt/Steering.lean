import Verif.SplineOpt.Continuity
import Mathlib.Topology.Order.IntermediateValue
import Mathlib.Analysis.Calculus.Deriv.MeanValue
import Mathlib.Topology.Algebra.Polynomial
set_option linter.unusedSectionVars false

/-!
# The steering method that builds splines (C90)

The pseudo-inverse computed by `Eigen::JacobiSVD` is a parameter; computations are exact.  `diff` and `integrate` are the difference and the
integration of the Lie group.
-/
namespace Verif.SplineOpt
open Verif.Spline Polynomial

/-- A row of `coeffs` and of `rhs`: src/steering-method/spline.cc:97-99. -/
structure SRow where
  c : ℕ → ℝ
  rhs : ℕ → ℝ

/-- Outcomes of the construction of splines that are not a spline: an Eigen block out of range, `std::logic_error`. -/
inductive Err
  | range
  | logic
deriving DecidableEq

/-- Derivatives given to `steer`: orders and a matrix with `cols` columns. -/
structure Ders where
  orders : List ℕ
  cols : ℕ
  v : ℕ → ℕ → ℝ

variable {Q : Type}

/-- The path before its control points are set: src/steering-method/spline.cc:90-101. -/
noncomputable def blank (n : ℕ) (q1 : Q) (length dist : ℝ) : Spl Q := ⟨n, q1, fun _ _ => 0, 0, if length ≤ 0 then dist else length⟩

/-- Basis functions of a spline (`basisFunctionDerivative`): src/path/spline.cc:313-325. -/
noncomputable def bfQ (s : Spl Q) (k : ℕ) (u : ℝ) (i : ℕ) : ℝ := if s.s1 - s.s0 = 0 then 0 else basis s.n k u i / (s.s1 - s.s0) ^ k

/-- Rows of derivatives at one end: src/steering-method/spline.cc:113-115 and 122-124. -/
noncomputable def derRows (p : Spl Q) (u : ℝ) (D : Ders) : List SRow := D.orders.zipIdx.map fun ki => ⟨bfQ p ki.1 u, D.v ki.2⟩

/-- The linear system: src/steering-method/spline.cc:107-124. -/
noncomputable def steerRows (diff : Q → Q → ℕ → ℝ) (p : Spl Q) (q1 q2 : Q) (D1 D2 : Ders) : List SRow :=
  ⟨bfQ p 0 0, diff q1 p.base⟩ :: derRows p 0 D1 ++ ⟨bfQ p 0 1, diff q2 p.base⟩ :: derRows p 1 D2

/-- `steeringMethod::Spline::impl_compute` (and `steer`): src/steering-method/spline.cc:73-133; `solve` is `svd.solve`. -/
noncomputable def steer (solve : ℕ → List SRow → ℕ → ℕ → ℝ) (diff : Q → Q → ℕ → ℝ) (n : ℕ) (q1 : Q) (D1 : Ders) (q2 : Q) (D2 : Ders) (length dist : ℝ) :
    Except Err (Spl Q) :=
  if D1.orders.length = D1.cols ∧ D2.orders.length = D2.cols then
    let p := blank n q1 length dist
    .ok { p with P := solve n (steerRows diff p q1 q2 D1 D2) }
  else .error .range

/-- Null derivatives of orders `1` to `(n - 1) / 2`: src/steering-method/spline.cc:44-55, spline-gradient-based-abstract.cc:147-157. -/
def defaultDer (n : ℕ) : Ders := ⟨(List.range ((n - 1) / 2)).map (· + 1), (n - 1) / 2, fun _ _ => 0⟩

/-- `Spline::impl_compute (q1, q2)`: src/steering-method/spline.cc:41-56, and `SplineGradientBasedAbstract::steer`:
spline-gradient-based-abstract.cc:142-163. -/
noncomputable def steer0 (solve : ℕ → List SRow → ℕ → ℕ → ℝ) (diff : Q → Q → ℕ → ℝ) (n : ℕ) (q1 q2 : Q) (length dist : ℝ) : Except Err (Spl Q) :=
  steer solve diff n q1 (defaultDer n) q2 (defaultDer n) length dist

/-! ## Specification -/

/-- Column `d` of the linear system has solution `p`. -/
def Solution (n : ℕ) (rows : List SRow) (d : ℕ) (p : ℕ → ℝ) : Prop := ∀ r ∈ rows, ∑ i ∈ Finset.range (n + 1), p i * r.c i = r.rhs d

/-- The solution of linear systems by the pseudo-inverse: an exact solution of each column that has one, zero if the matrix is zero. -/
structure Solver (solve : ℕ → List SRow → ℕ → ℕ → ℝ) : Prop where
  exact : ∀ n rows d, (∃ p, Solution n rows d p) → Solution n rows d fun i => solve n rows i d
  zero : ∀ n rows, (∀ r ∈ rows, ∀ i, r.c i = 0) → ∀ i d, solve n rows i d = 0

/-- Difference and integration of a Lie group. -/
structure Group (diff : Q → Q → ℕ → ℝ) (integrate : Q → (ℕ → ℝ) → Q) : Prop where
  self : ∀ q, diff q q = fun _ => 0
  inv : ∀ q b, integrate b (diff q b) = q

/-! ## Values of the basis at the ends -/

theorem basis_at0 {n k i : ℕ} (h : k < i) (hi : i ≤ n) : basis n k 0 i = 0 := by
  rw [C54_basis n k 0 i hi, bernsteinPolynomial.iterate_derivative_at_0_eq_zero_of_lt ℝ n h]

theorem basis_at0_ne {n k : ℕ} (h : k ≤ n) : basis n k 0 k ≠ 0 := by
  rw [C54_basis n k 0 k h]
  exact bernsteinPolynomial.iterate_derivative_at_0_ne_zero ℝ n k h

theorem basis_at1 {n k i : ℕ} (h : k < n - i) : basis n k 1 i = 0 := by
  rw [C54_basis n k 1 i (by omega), bernsteinPolynomial.iterate_derivative_at_1_eq_zero_of_lt ℝ n h]

theorem basis_at1_ne {n k : ℕ} (h : k ≤ n) : basis n k 1 (n - k) ≠ 0 := by
  rw [C54_basis n k 1 _ (by omega)]
  have := bernsteinPolynomial.iterate_derivative_at_1_ne_zero ℝ n (n - k) (by omega)
  rwa [show n - (n - k) = k by omega] at this

/-- A triangular system has a solution. -/
theorem triangular (c : ℕ → ℕ → ℝ) (a : ℕ → ℝ) (K : ℕ) (hc : ∀ k ≤ K, c k k ≠ 0) : ∃ p : ℕ → ℝ, ∀ k ≤ K, ∑ i ∈ Finset.range (k + 1), p i * c k i = a k := by
  induction K with
  | zero =>
    refine ⟨fun _ => a 0 / c 0 0, fun k hk => ?_⟩
    obtain rfl : k = 0 := by omega
    simp only [zero_add, Finset.sum_range_one]
    rw [div_mul_cancel₀ _ (hc 0 le_rfl)]
  | succ K ih =>
    obtain ⟨p, hp⟩ := ih fun k hk => hc k (by omega)
    refine ⟨Function.update p (K + 1) ((a (K + 1) - ∑ i ∈ Finset.range (K + 1), p i * c (K + 1) i) / c (K + 1) (K + 1)), fun k hk => ?_⟩
    have hsum : ∀ k j, j ≤ K + 1 → ∑ i ∈ Finset.range j, Function.update p (K + 1) ((a (K + 1) - ∑ i ∈ Finset.range (K + 1), p i * c (K + 1) i) / c (K + 1) (K + 1)) i * c k i
        = ∑ i ∈ Finset.range j, p i * c k i := by
      intro k j hj
      refine Finset.sum_congr rfl fun i hi => ?_
      rw [Function.update_of_ne (by have := Finset.mem_range.1 hi; omega)]
    by_cases h : k ≤ K
    · rw [hsum k (k + 1) (by omega), hp k h]
    · obtain rfl : k = K + 1 := by omega
      rw [Finset.sum_range_succ, hsum _ _ le_rfl, Function.update_self, div_mul_cancel₀ _ (hc _ le_rfl)]
      ring

theorem sum_left {n k : ℕ} (hk : k ≤ n) (p : ℕ → ℝ) : ∑ i ∈ Finset.range (n + 1), p i * basis n k 0 i = ∑ i ∈ Finset.range (k + 1), p i * basis n k 0 i := by
  symm
  refine Finset.sum_subset (Finset.range_mono (by omega)) fun i hi hk' => ?_
  rw [basis_at0 (by rw [Finset.mem_range] at hk'; omega) (by rw [Finset.mem_range] at hi; omega), mul_zero]

theorem sum_right {n k : ℕ} (hk : k ≤ n) (p : ℕ → ℝ) :
    ∑ i ∈ Finset.range (n + 1), p i * basis n k 1 i = ∑ i ∈ Finset.range (k + 1), p (n - i) * basis n k 1 (n - i) := by
  rw [← Finset.sum_range_reflect (fun i => p i * basis n k 1 i) (n + 1)]
  symm
  have : ∀ i ∈ Finset.range (k + 1), p (n - i) * basis n k 1 (n - i) = p (n + 1 - 1 - i) * basis n k 1 (n + 1 - 1 - i) := by
    intro i hi
    rw [show n + 1 - 1 - i = n - i by omega]
  rw [Finset.sum_congr rfl this]
  refine Finset.sum_subset (Finset.range_mono (by omega)) fun i hi hk' => ?_
  rw [Finset.mem_range] at hi hk'
  rw [basis_at1 (by omega), mul_zero]

/-- Interpolation of Hermite: derivatives up to order `k1` at 0 and `k2` at 1 can be chosen. -/
theorem hermite (n k1 k2 : ℕ) (h : k1 + k2 + 1 ≤ n) (a b : ℕ → ℝ) : ∃ p : ℕ → ℝ,
    (∀ k ≤ k1, ∑ i ∈ Finset.range (n + 1), p i * basis n k 0 i = a k) ∧ ∀ k ≤ k2, ∑ i ∈ Finset.range (n + 1), p i * basis n k 1 i = b k := by
  obtain ⟨p, hp⟩ := triangular (fun k i => basis n k 0 i) a k1 fun k hk => basis_at0_ne (by omega)
  obtain ⟨r, hr⟩ := triangular (fun k i => basis n k 1 (n - i)) b k2 fun k hk => basis_at1_ne (by omega)
  refine ⟨fun i => if i ≤ k1 then p i else r (n - i), fun k hk => ?_, fun k hk => ?_⟩
  · rw [sum_left (by omega), ← hp k hk]
    refine Finset.sum_congr rfl fun i hi => ?_
    rw [Finset.mem_range] at hi
    rw [if_pos (by omega)]
  · rw [sum_right (by omega), ← hr k hk]
    refine Finset.sum_congr rfl fun i hi => ?_
    rw [Finset.mem_range] at hi
    rw [if_neg (by omega), show n - (n - i) = i by omega]

/-- A triangular homogeneous system has no other solution than 0. -/
theorem triangular_zero (c : ℕ → ℕ → ℝ) (K : ℕ) (hc : ∀ k ≤ K, c k k ≠ 0) (p : ℕ → ℝ) (hp : ∀ k ≤ K, ∑ i ∈ Finset.range (k + 1), p i * c k i = 0) :
    ∀ k ≤ K, p k = 0 := by
  intro k
  induction k using Nat.strong_induction_on with
  | _ k ih =>
    intro hk
    have := hp k hk
    rw [Finset.sum_range_succ, Finset.sum_eq_zero fun i hi => ?_] at this
    · rw [zero_add] at this
      exact (mul_eq_zero.1 this).resolve_right (hc k hk)
    · rw [Finset.mem_range] at hi
      rw [ih i hi (by omega), zero_mul]

theorem hermite_unique (n k1 k2 : ℕ) (h : n ≤ k1 + k2 + 1) (h1 : k1 ≤ n) (h2 : k2 ≤ n) (p : ℕ → ℝ) (ha : ∀ k ≤ k1, ∑ i ∈ Finset.range (n + 1), p i * basis n k 0 i = 0)
    (hb : ∀ k ≤ k2, ∑ i ∈ Finset.range (n + 1), p i * basis n k 1 i = 0) : ∀ i ≤ n, p i = 0 := by
  have hl := triangular_zero (fun k i => basis n k 0 i) k1 (fun k hk => basis_at0_ne (by omega)) p fun k hk => by
    rw [← sum_left (by omega)]; exact ha k hk
  have hr := triangular_zero (fun k i => basis n k 1 (n - i)) k2 (fun k hk => basis_at1_ne (by omega)) (fun i => p (n - i)) fun k hk => by
    have := hb k hk
    rwa [sum_right (by omega)] at this
  intro i hi
  by_cases hk : i ≤ k1
  · exact hl i hk
  · have := hr (n - i) (by omega)
    simpa [show n - (n - i) = i by omega] using this

/-! ## The path -/

variable {solve : ℕ → List SRow → ℕ → ℕ → ℝ} {diff : Q → Q → ℕ → ℝ} {integrate : Q → (ℕ → ℝ) → Q}

theorem mem_derRows {p : Spl Q} {u : ℝ} {D : Ders} {r : SRow} : r ∈ derRows p u D ↔ ∃ i k, D.orders[i]? = some k ∧ r = ⟨bfQ p k u, D.v i⟩ := by
  unfold derRows
  constructor
  · intro h
    obtain ⟨⟨k, i⟩, hm, rfl⟩ := List.mem_map.1 h
    exact ⟨i, k, List.mem_zipIdx_iff_getElem?.1 hm, rfl⟩
  · rintro ⟨i, k, h, rfl⟩
    exact List.mem_map.2 ⟨(k, i), List.mem_zipIdx_iff_getElem?.2 h, rfl⟩

theorem bfQ_sum {p : Spl Q} (hL : p.s1 - p.s0 ≠ 0) (c : ℕ → ℝ) (k : ℕ) (u : ℝ) :
    ∑ i ∈ Finset.range (p.n + 1), c i * bfQ p k u i = (∑ i ∈ Finset.range (p.n + 1), c i * basis p.n k u i) / (p.s1 - p.s0) ^ k := by
  rw [Finset.sum_div]
  refine Finset.sum_congr rfl fun i _ => ?_
  unfold bfQ
  rw [if_neg hL, mul_div_assoc]

/-- The system has a solution when the derivatives given at both ends have distinct orders, at most `k1` and `k2`. -/
theorem steer_solvable {p : Spl Q} (hL : p.s1 - p.s0 ≠ 0) (q1 q2 : Q) {D1 D2 : Ders} {k1 k2 : ℕ} (hn : k1 + k2 + 1 ≤ p.n) (h1 : D1.orders.Nodup) (h2 : D2.orders.Nodup)
    (b1 : ∀ k ∈ D1.orders, 1 ≤ k ∧ k ≤ k1) (b2 : ∀ k ∈ D2.orders, 1 ≤ k ∧ k ≤ k2) (d : ℕ) : ∃ c, Solution p.n (steerRows diff p q1 q2 D1 D2) d c := by
  obtain ⟨c, ha, hb⟩ := hermite p.n k1 k2 hn (fun k => if k = 0 then diff q1 p.base d else D1.v (D1.orders.idxOf k) d * (p.s1 - p.s0) ^ k)
    (fun k => if k = 0 then diff q2 p.base d else D2.v (D2.orders.idxOf k) d * (p.s1 - p.s0) ^ k)
  have hidx : ∀ {l : List ℕ}, l.Nodup → ∀ {i k : ℕ}, l[i]? = some k → l.idxOf k = i := by
    intro l hl i k h
    obtain ⟨hi, rfl⟩ := List.getElem?_eq_some_iff.1 h
    exact hl.idxOf_getElem i hi
  refine ⟨c, fun r hr => ?_⟩
  unfold steerRows at hr
  rcases List.mem_append.1 hr with hr | hr
  · rcases List.mem_cons.1 hr with rfl | hr
    · simp only
      rw [bfQ_sum hL, ha 0 (Nat.zero_le _)]
      simp
    · obtain ⟨i, k, h, rfl⟩ := mem_derRows.1 hr
      have hk := b1 k (List.mem_of_getElem? h)
      simp only
      rw [bfQ_sum hL, ha k hk.2]
      rw [if_neg (by omega), hidx h1 h, mul_div_cancel_right₀ _ (pow_ne_zero _ hL)]
  · rcases List.mem_cons.1 hr with rfl | hr
    · simp only
      rw [bfQ_sum hL, hb 0 (Nat.zero_le _)]
      simp
    · obtain ⟨i, k, h, rfl⟩ := mem_derRows.1 hr
      have hk := b2 k (List.mem_of_getElem? h)
      simp only
      rw [bfQ_sum hL, hb k hk.2]
      rw [if_neg (by omega), hidx h2 h, mul_div_cancel_right₀ _ (pow_ne_zero _ hL)]

/-- Meaning of the rows for a spline. -/
theorem rows_spec {p : Spl Q} (h : p.s0 < p.s1) (q1 q2 : Q) (D1 D2 : Ders) (hs : ∀ d, Solution p.n (steerRows diff p q1 q2 D1 D2) d fun i => p.P i d) :
    p.velocity (p.param p.s0) = diff q1 p.base ∧ p.velocity (p.param p.s1) = diff q2 p.base ∧
      (∀ i k, D1.orders[i]? = some k → k ≤ 2 * (p.n + 1) → ∀ d, p.derivative p.s0 k d = some (D1.v i d)) ∧
      ∀ i k, D2.orders[i]? = some k → k ≤ 2 * (p.n + 1) → ∀ d, p.derivative p.s1 k d = some (D2.v i d) := by
  have hL : p.s1 - p.s0 ≠ 0 := by intro h0; linarith
  have e0 : p.param p.s0 = 0 := by rw [param_eq p h p.s0 ⟨le_rfl, h.le⟩, sub_self, zero_div]
  have e1 : p.param p.s1 = 1 := by rw [param_eq p h p.s1 ⟨h.le, le_rfl⟩, div_self hL]
  refine ⟨?_, ?_, ?_, ?_⟩
  · funext d
    have := hs d ⟨bfQ p 0 0, diff q1 p.base⟩ (List.mem_append_left _ List.mem_cons_self)
    simp only at this
    rw [bfQ_sum hL, pow_zero, div_one] at this
    rw [e0]
    exact this
  · funext d
    have := hs d ⟨bfQ p 0 1, diff q2 p.base⟩ (List.mem_append_right _ List.mem_cons_self)
    simp only at this
    rw [bfQ_sum hL, pow_zero, div_one] at this
    rw [e1]
    exact this
  · intro i k hk ho d
    have := hs d _ (List.mem_append_left _ (List.mem_cons_of_mem _ (mem_derRows.2 ⟨i, k, hk, rfl⟩)))
    simp only at this
    rw [← this]
    unfold Spl.derivative bfQ
    simp only [if_neg hL]
    rw [if_neg (by omega), sub_self, zero_div]
  · intro i k hk ho d
    have := hs d _ (List.mem_append_right _ (List.mem_cons_of_mem _ (mem_derRows.2 ⟨i, k, hk, rfl⟩)))
    simp only at this
    rw [← this]
    unfold Spl.derivative bfQ
    simp only [if_neg hL]
    rw [if_neg (by omega), div_self hL]

/-- C90: the spline between two configurations has the length asked for (the distance if the argument is not positive), goes from one to the other, and
has the derivatives asked for at both ends, provided their orders are distinct and small enough for the degree. -/
theorem C90_steer (hs : Solver solve) (hg : Group diff integrate) (n : ℕ) (q1 q2 : Q) (D1 D2 : Ders) (length dist : ℝ) (k1 k2 : ℕ) (hn : k1 + k2 + 1 ≤ n)
    (c1 : D1.orders.length = D1.cols) (c2 : D2.orders.length = D2.cols) (h1 : D1.orders.Nodup) (h2 : D2.orders.Nodup)
    (b1 : ∀ k ∈ D1.orders, 1 ≤ k ∧ k ≤ k1) (b2 : ∀ k ∈ D2.orders, 1 ≤ k ∧ k ≤ k2) (hL : 0 < length ∨ 0 < dist) :
    ∃ p, steer solve diff n q1 D1 q2 D2 length dist = .ok p ∧ p.n = n ∧ p.base = q1 ∧ p.s0 = 0 ∧ p.s1 = (if 0 < length then length else dist) ∧
      p.compute integrate p.s0 = q1 ∧ p.compute integrate p.s1 = q2 ∧
      (∀ i k, D1.orders[i]? = some k → ∀ d, p.derivative p.s0 k d = some (D1.v i d)) ∧
      ∀ i k, D2.orders[i]? = some k → ∀ d, p.derivative p.s1 k d = some (D2.v i d) := by
  have hlen : (if length ≤ 0 then dist else length) = if 0 < length then length else dist := by
    by_cases h : 0 < length
    · rw [if_pos h, if_neg (not_le.2 h)]
    · rw [if_neg h, if_pos (not_lt.1 h)]
  have hpos : (0 : ℝ) < if 0 < length then length else dist := by
    by_cases h : 0 < length
    · rw [if_pos h]; exact h
    · rw [if_neg h]; exact hL.resolve_left h
  unfold steer
  rw [if_pos ⟨c1, c2⟩]
  have hsol : ∀ d, Solution n (steerRows diff (blank n q1 length dist) q1 q2 D1 D2) d fun i => solve n (steerRows diff (blank n q1 length dist) q1 q2 D1 D2) i d := by
    intro d
    refine hs.exact _ _ _ (steer_solvable (p := blank n q1 length dist) ?_ q1 q2 hn h1 h2 b1 b2 d)
    show (if length ≤ 0 then dist else length) - 0 ≠ 0
    rw [hlen, sub_zero]
    exact hpos.ne'
  set p : Spl Q := { blank n q1 length dist with P := solve n (steerRows diff (blank n q1 length dist) q1 q2 D1 D2) } with hp
  have hlt : p.s0 < p.s1 := by
    show (0 : ℝ) < if length ≤ 0 then dist else length
    rw [hlen]; exact hpos
  obtain ⟨r1, r2, r3, r4⟩ := rows_spec (p := p) hlt q1 q2 D1 D2 hsol
  refine ⟨p, rfl, rfl, rfl, rfl, hlen, ?_, ?_, fun i k hk => r3 i k hk ?_, fun i k hk => r4 i k hk ?_⟩
  · unfold Spl.compute; rw [r1]; exact hg.inv q1 q1
  · unfold Spl.compute; rw [r2]; exact hg.inv q2 q1
  · have := b1 k (List.mem_of_getElem? hk)
    show k ≤ 2 * (n + 1)
    omega
  · have := b2 k (List.mem_of_getElem? hk)
    show k ≤ 2 * (n + 1)
    omega

/-- C90: a matrix of derivatives whose number of columns is not the number of orders is written out of range. -/
theorem C90_sizes (n : ℕ) (q1 q2 : Q) (D1 D2 : Ders) (length dist : ℝ) : steer solve diff n q1 D1 q2 D2 length dist = .error .range ↔
    D1.orders.length ≠ D1.cols ∨ D2.orders.length ≠ D2.cols := by
  unfold steer
  by_cases h : D1.orders.length = D1.cols ∧ D2.orders.length = D2.cols
  · rw [if_pos h]
    simp [h.1, h.2]
  · rw [if_neg h]
    simp only [true_iff]
    tauto

/-- C90: between configurations at distance 0, without a positive length, the path is the first configuration. -/
theorem C90_null (hs : Solver solve) (hg : Group diff integrate) (n : ℕ) (q1 q2 : Q) (length : ℝ) (h : length ≤ 0) :
    ∃ p, steer0 solve diff n q1 q2 length 0 = .ok p ∧ p.s0 = 0 ∧ p.s1 = 0 ∧ ∀ s, p.compute integrate s = q1 := by
  unfold steer0 steer
  rw [if_pos (by simp [defaultDer])]
  refine ⟨_, rfl, rfl, if_pos h, fun s => ?_⟩
  have hz : ∀ i d, solve n (steerRows diff (blank n q1 length 0) q1 q2 (defaultDer n) (defaultDer n)) i d = 0 := by
    refine hs.zero _ _ fun r hr i => ?_
    have hb : ∀ k u i, bfQ (blank n q1 length 0) k u i = 0 := by
      intro k u i
      unfold bfQ blank
      rw [if_pos h, if_pos (sub_self _)]
    rcases List.mem_append.1 hr with hr | hr
    · rcases List.mem_cons.1 hr with rfl | hr
      · exact hb _ _ _
      · obtain ⟨i, k, _, rfl⟩ := mem_derRows.1 hr
        exact hb _ _ _
    · rcases List.mem_cons.1 hr with rfl | hr
      · exact hb _ _ _
      · obtain ⟨i, k, _, rfl⟩ := mem_derRows.1 hr
        exact hb _ _ _
  have hv : ∀ u, Spl.velocity { blank n q1 length 0 with P := solve n (steerRows diff (blank n q1 length 0) q1 q2 (defaultDer n) (defaultDer n)) } u = fun _ => 0 := by
    intro u
    funext d
    unfold Spl.velocity
    exact Finset.sum_eq_zero fun i _ => by simp only [hz, zero_mul]
  unfold Spl.compute
  rw [hv, ← hg.self q1]
  exact hg.inv q1 q1

/-! ## Null derivatives -/

theorem defaultDer_get {n i k : ℕ} : (defaultDer n).orders[i]? = some k ↔ i < (n - 1) / 2 ∧ k = i + 1 := by
  unfold defaultDer
  simp only [List.getElem?_map]
  by_cases h : i < (n - 1) / 2
  · rw [List.getElem?_range h]
    simp [h, eq_comm]
  · rw [List.getElem?_eq_none (by simpa using h)]
    simp [h]

theorem defaultDer_mem {n k : ℕ} (h : k ∈ (defaultDer n).orders) : 1 ≤ k ∧ k ≤ (n - 1) / 2 := by
  obtain ⟨i, hi⟩ := List.mem_iff_getElem?.1 h
  have := defaultDer_get.1 hi
  omega

theorem defaultDer_nodup (n : ℕ) : (defaultDer n).orders.Nodup := by
  unfold defaultDer
  exact List.nodup_range.map fun a b h => Nat.succ_injective h

/-- Sum of the derivatives of the basis. -/
theorem sum_basis (n k : ℕ) (u : ℝ) : ∑ i ∈ Finset.range (n + 1), basis n k u i = if k = 0 then 1 else 0 := by
  have : ∑ i ∈ Finset.range (n + 1), basis n k u i = (derivative^[k] (∑ i ∈ Finset.range (n + 1), bernsteinPolynomial ℝ n i)).eval u := by
    rw [Polynomial.iterate_derivative_sum, eval_finsetSum]
    exact Finset.sum_congr rfl fun i hi => C54_basis n k u i (Nat.lt_succ_iff.1 (Finset.mem_range.1 hi))
  rw [this, bernsteinPolynomial.sum]
  by_cases hk : k = 0
  · subst hk; simp
  · rw [if_neg hk]
    obtain ⟨j, rfl⟩ := Nat.exists_eq_succ_of_ne_zero hk
    rw [Function.iterate_succ_apply, Polynomial.derivative_one, Polynomial.iterate_derivative_zero, eval_zero]

/-- Parameter along the segment. -/
noncomputable def lam (h : ℕ) (u : ℝ) : ℝ := ∑ i ∈ Finset.Ico (h + 1) (2 * h + 2), (bernsteinPolynomial ℝ (2 * h + 1) i).eval u

theorem lam_deriv (h : ℕ) (u : ℝ) : HasDerivAt (lam h) ((2 * h + 1) * (bernsteinPolynomial ℝ (2 * h) h).eval u) u := by
  have e : lam h = fun u => (∑ i ∈ Finset.Ico (h + 1) (2 * h + 2), bernsteinPolynomial ℝ (2 * h + 1) i).eval u := by
    funext u; rw [eval_finsetSum]; rfl
  rw [e]
  have hd : derivative (∑ i ∈ Finset.Ico (h + 1) (2 * h + 2), bernsteinPolynomial ℝ (2 * h + 1) i) = ((2 * h + 1 : ℕ) : ℝ[X]) * bernsteinPolynomial ℝ (2 * h) h := by
    rw [Polynomial.derivative_sum]
    have hstep : ∀ i ∈ Finset.Ico (h + 1) (2 * h + 2), derivative (bernsteinPolynomial ℝ (2 * h + 1) i)
        = ((2 * h + 1 : ℕ) : ℝ[X]) * (bernsteinPolynomial ℝ (2 * h) (i - 1) - bernsteinPolynomial ℝ (2 * h) i) := by
      intro i hi
      rw [Finset.mem_Ico] at hi
      obtain ⟨j, rfl⟩ : ∃ j, i = j + 1 := ⟨i - 1, by omega⟩
      rw [bernsteinPolynomial.derivative_succ]
      rfl
    rw [Finset.sum_congr rfl hstep, ← Finset.mul_sum, Finset.sum_Ico_eq_sum_range]
    congr 1
    have := Finset.sum_range_sub' (fun i => bernsteinPolynomial ℝ (2 * h) (h + i)) (2 * h + 2 - (h + 1))
    have hz : bernsteinPolynomial ℝ (2 * h) (h + (2 * h + 2 - (h + 1))) = 0 := bernsteinPolynomial.eq_zero_of_lt _ (by omega)
    rw [hz, sub_zero, add_zero] at this
    rw [← this]
    refine Finset.sum_congr rfl fun i _ => ?_
    rw [show h + 1 + i - 1 = h + i by omega, show h + 1 + i = h + (i + 1) by omega]
  have := (∑ i ∈ Finset.Ico (h + 1) (2 * h + 2), bernsteinPolynomial ℝ (2 * h + 1) i).hasDerivAt u
  rw [hd] at this
  simpa using this

theorem lam_zero (h : ℕ) : lam h 0 = 0 := by
  unfold lam
  refine Finset.sum_eq_zero fun i hi => ?_
  rw [Finset.mem_Ico] at hi
  rw [bernsteinPolynomial.eval_at_0, if_neg (by omega)]

theorem lam_one (h : ℕ) : lam h 1 = 1 := by
  unfold lam
  rw [Finset.sum_eq_single (2 * h + 1)]
  · rw [bernsteinPolynomial.eval_at_1, if_pos rfl]
  · intro i _ hi
    rw [bernsteinPolynomial.eval_at_1, if_neg (by omega)]
  · intro hi
    exact absurd (Finset.mem_Ico.2 ⟨by omega, by omega⟩) hi

theorem lam_mono (h : ℕ) : MonotoneOn (lam h) (Set.Icc 0 1) := by
  refine monotoneOn_of_deriv_nonneg (convex_Icc 0 1) (fun u _ => (lam_deriv h u).continuousAt.continuousWithinAt) (fun u _ => (lam_deriv h u).differentiableAt.differentiableWithinAt) ?_
  intro u hu
  rw [interior_Icc] at hu
  rw [(lam_deriv h u).deriv]
  exact mul_nonneg (by positivity) (bern_nonneg _ _ _ hu.1.le hu.2.le)

theorem lam_surj (h : ℕ) (t : ℝ) (h0 : 0 ≤ t) (h1 : t ≤ 1) : ∃ u, 0 ≤ u ∧ u ≤ 1 ∧ lam h u = t := by
  have hc : ContinuousOn (lam h) (Set.Icc 0 1) := fun u _ => (lam_deriv h u).continuousAt.continuousWithinAt
  obtain ⟨u, hu, e⟩ := intermediate_value_Icc zero_le_one hc (show t ∈ Set.Icc (lam h 0) (lam h 1) by rw [lam_zero, lam_one]; exact ⟨h0, h1⟩)
  exact ⟨u, hu.1, hu.2, e⟩

/-- C90: with null derivatives at both ends, the control points of a spline of odd degree are, for one half, the first configuration and, for the other
half, the second one; the path follows the straight segment from one configuration to the other, without going back. -/
theorem C90_straight (hs : Solver solve) (hg : Group diff integrate) (h : ℕ) (q1 q2 : Q) (length dist : ℝ) (hL : 0 < length ∨ 0 < dist) :
    ∃ p, steer0 solve diff (2 * h + 1) q1 q2 length dist = .ok p ∧
      (∀ i ≤ 2 * h + 1, ∀ d, p.P i d = if i ≤ h then 0 else diff q2 q1 d) ∧
      (∃ f : ℝ → ℝ, f 0 = 0 ∧ f p.s1 = 1 ∧ MonotoneOn f (Set.Icc 0 p.s1) ∧ ∀ s ∈ Set.Icc 0 p.s1, p.compute integrate s = integrate q1 (fun d => f s * diff q2 q1 d)) ∧
      ∀ q, (∃ s ∈ Set.Icc 0 p.s1, p.compute integrate s = q) ↔ ∃ t ∈ Set.Icc (0 : ℝ) 1, integrate q1 (fun d => t * diff q2 q1 d) = q := by
  have hn : (2 * h + 1 - 1) / 2 = h := by omega
  have hb : ∀ k ∈ (defaultDer (2 * h + 1)).orders, 1 ≤ k ∧ k ≤ h := fun k hk => by have := defaultDer_mem hk; omega
  obtain ⟨p, hp, e1, e2, e3, e4, e5, e6, e7, e8⟩ := C90_steer hs hg (2 * h + 1) q1 q2 (defaultDer (2 * h + 1)) (defaultDer (2 * h + 1)) length dist h h (by omega)
    (by simp [defaultDer]) (by simp [defaultDer]) (defaultDer_nodup _) (defaultDer_nodup _) hb hb hL
  have hpos : 0 < p.s1 := by
    rw [e4]
    by_cases h : 0 < length
    · rw [if_pos h]; exact h
    · rw [if_neg h]; exact hL.resolve_left h
  have hlt : p.s0 < p.s1 := by rw [e3]; exact hpos
  have hLne : p.s1 - p.s0 ≠ 0 := by intro h0; linarith
  -- the velocity at both ends
  have hpP : p = { blank (2 * h + 1) q1 length dist with P := solve (2 * h + 1) (steerRows diff (blank (2 * h + 1) q1 length dist) q1 q2 (defaultDer (2 * h + 1)) (defaultDer (2 * h + 1))) } := by
    unfold steer at hp
    rw [if_pos (by simp [defaultDer])] at hp
    exact (Except.ok.inj hp).symm
  have hsol : ∀ d, Solution (2 * h + 1) (steerRows diff (blank (2 * h + 1) q1 length dist) q1 q2 (defaultDer (2 * h + 1)) (defaultDer (2 * h + 1))) d fun i => p.P i d := by
    intro d
    rw [hpP]
    refine hs.exact _ _ _ (steer_solvable (p := blank (2 * h + 1) q1 length dist) ?_ q1 q2 (show h + h + 1 ≤ 2 * h + 1 by omega) (defaultDer_nodup _) (defaultDer_nodup _) hb hb d)
    rw [hpP] at hLne
    exact hLne
  have hsol' : ∀ d, Solution p.n (steerRows diff p q1 q2 (defaultDer (2 * h + 1)) (defaultDer (2 * h + 1))) d fun i => p.P i d := by
    intro d
    have := hsol d
    rw [hpP] at this ⊢
    exact this
  obtain ⟨r1, r2, r3, r4⟩ := rows_spec (diff := diff) hlt q1 q2 (defaultDer (2 * h + 1)) (defaultDer (2 * h + 1)) hsol'
  have p0 : p.param p.s0 = 0 := by rw [param_eq p hlt p.s0 ⟨le_rfl, hlt.le⟩, sub_self, zero_div]
  have p1 : p.param p.s1 = 1 := by rw [param_eq p hlt p.s1 ⟨hlt.le, le_rfl⟩, div_self hLne]
  rw [p0] at r1
  rw [p1] at r2
  have hP : ∀ i ≤ 2 * h + 1, ∀ d, p.P i d = if i ≤ h then 0 else diff q2 q1 d := by
    intro i hi d
    have hder : ∀ k, 1 ≤ k → k ≤ h → (∑ i ∈ Finset.range (2 * h + 1 + 1), p.P i d * basis (2 * h + 1) k 0 i = 0) ∧ ∑ i ∈ Finset.range (2 * h + 1 + 1), p.P i d * basis (2 * h + 1) k 1 i = 0 := by
      intro k hk1 hk
      have hg0 : (defaultDer (2 * h + 1)).orders[k - 1]? = some k := defaultDer_get.2 ⟨by omega, by omega⟩
      have d1 := r3 (k - 1) k hg0 (by rw [e1]; omega) d
      have d2 := r4 (k - 1) k hg0 (by rw [e1]; omega) d
      have hpow := pow_ne_zero k hLne
      unfold Spl.derivative at d1 d2
      rw [if_neg hLne, if_neg (by rw [e1]; omega)] at d1 d2
      rw [sub_self, zero_div] at d1
      rw [div_self hLne] at d2
      have d1 := Option.some.inj d1
      have d2 := Option.some.inj d2
      have z : (defaultDer (2 * h + 1)).v (k - 1) d = 0 := rfl
      rw [z] at d1 d2
      simp only [← mul_div_assoc] at d1 d2
      rw [← Finset.sum_div, div_eq_zero_iff, or_iff_left hpow, e1] at d1 d2
      exact ⟨d1, d2⟩
    have v1 : ∑ i ∈ Finset.range (2 * h + 1 + 1), p.P i d * basis (2 * h + 1) 0 0 i = 0 := by
      have := congrFun r1 d
      unfold Spl.velocity at this
      rw [e1, e2, hg.self] at this
      exact this
    have v2 : ∑ i ∈ Finset.range (2 * h + 1 + 1), p.P i d * basis (2 * h + 1) 0 1 i = diff q2 q1 d := by
      have := congrFun r2 d
      unfold Spl.velocity at this
      rw [e1, e2] at this
      exact this
    -- the candidate
    have c0 : ∀ k ≤ h, ∑ i ∈ Finset.range (2 * h + 1 + 1), (if i ≤ h then (0 : ℝ) else diff q2 q1 d) * basis (2 * h + 1) k 0 i = 0 := by
      intro k hk
      rw [sum_left (by omega)]
      refine Finset.sum_eq_zero fun i hi => ?_
      rw [Finset.mem_range] at hi
      rw [if_pos (by omega), zero_mul]
    have c1 : ∀ k ≤ h, ∑ i ∈ Finset.range (2 * h + 1 + 1), (if i ≤ h then (0 : ℝ) else diff q2 q1 d) * basis (2 * h + 1) k 1 i = if k = 0 then diff q2 q1 d else 0 := by
      intro k hk
      have : ∀ i ∈ Finset.range (2 * h + 1 + 1), (if i ≤ h then (0 : ℝ) else diff q2 q1 d) * basis (2 * h + 1) k 1 i = diff q2 q1 d * basis (2 * h + 1) k 1 i := by
        intro i hi
        by_cases hih : i ≤ h
        · rw [if_pos hih, basis_at1 (by omega), mul_zero, mul_zero]
        · rw [if_neg hih]
      rw [Finset.sum_congr rfl this, ← Finset.mul_sum, sum_basis]
      split <;> simp
    have hu := hermite_unique (2 * h + 1) h h (by omega) (by omega) (by omega) (fun i => p.P i d - if i ≤ h then 0 else diff q2 q1 d) (fun k hk => ?_) (fun k hk => ?_) i hi
    · exact sub_eq_zero.1 hu
    · simp only [sub_mul]
      rw [Finset.sum_sub_distrib, c0 k hk, sub_zero]
      by_cases hk0 : k = 0
      · subst hk0; exact v1
      · exact (hder k (by omega) hk).1
    · simp only [sub_mul]
      rw [Finset.sum_sub_distrib, c1 k hk]
      by_cases hk0 : k = 0
      · subst hk0; rw [v2, if_pos rfl, sub_self]
      · rw [if_neg hk0, sub_zero]
        exact (hder k (by omega) hk).2
  have hvel : ∀ u, p.velocity u = fun d => lam h u * diff q2 q1 d := by
    intro u
    funext d
    unfold Spl.velocity lam
    rw [e1, Finset.sum_mul, Finset.range_eq_Ico, ← Finset.sum_Ico_consecutive _ (Nat.zero_le (h + 1)) (show h + 1 ≤ 2 * h + 1 + 1 by omega)]
    rw [Finset.sum_eq_zero fun i hi => ?_, zero_add]
    · refine Finset.sum_congr rfl fun i hi => ?_
      rw [Finset.mem_Ico] at hi
      rw [hP i (by omega), if_neg (by omega), basis_zero _ _ (by omega), mul_comm]
    · rw [Finset.mem_Ico] at hi
      rw [hP i (by omega), if_pos (by omega), zero_mul]
  have hcomp : ∀ s ∈ Set.Icc 0 p.s1, p.compute integrate s = integrate q1 (fun d => lam h (s / p.s1) * diff q2 q1 d) := by
    intro s hs'
    unfold Spl.compute
    rw [hvel, param_eq p hlt s ⟨by rw [e3]; exact hs'.1, hs'.2⟩, e2, e3, sub_zero, sub_zero]
  have hdiv : ∀ s ∈ Set.Icc 0 p.s1, s / p.s1 ∈ Set.Icc (0 : ℝ) 1 := fun s hs' => ⟨div_nonneg hs'.1 hpos.le, (div_le_one hpos).2 hs'.2⟩
  refine ⟨p, hp, hP, ⟨fun s => lam h (s / p.s1), ?_, ?_, ?_, hcomp⟩, fun q => ?_⟩
  · simp only [zero_div, lam_zero]
  · simp only [div_self hpos.ne', lam_one]
  · intro a ha b hb' hab
    exact lam_mono h (hdiv a ha) (hdiv b hb') (div_le_div_of_nonneg_right hab hpos.le)
  · constructor
    · rintro ⟨s, hs', rfl⟩
      refine ⟨lam h (s / p.s1), ⟨?_, ?_⟩, (hcomp s hs').symm⟩
      · have := lam_mono h ⟨le_rfl, zero_le_one⟩ (hdiv s hs') (hdiv s hs').1
        rwa [lam_zero] at this
      · have := lam_mono h (hdiv s hs') ⟨zero_le_one, le_rfl⟩ (hdiv s hs').2
        rwa [lam_one] at this
    · rintro ⟨t, ht, rfl⟩
      obtain ⟨u, hu0, hu1, rfl⟩ := lam_surj h t ht.1 ht.2
      have hm : u * p.s1 ∈ Set.Icc 0 p.s1 := ⟨mul_nonneg hu0 hpos.le, mul_le_of_le_one_left hpos.le hu1⟩
      refine ⟨u * p.s1, hm, ?_⟩
      rw [hcomp _ hm, mul_div_assoc, div_self hpos.ne', mul_one]

/-! ## The initial path of the optimizer -/

/-- Paths given to the optimizer, as far as `appendEquivalentSpline` distinguishes them: ends and length, number of interpolation points, splines of the
degree of the optimizer. -/
inductive Pth (Q : Type)
  | straight (q1 q2 : Q) (length : ℝ)
  | interpolated (q1 q2 : Q) (length : ℝ) (points : ℕ)
  | spline (s : Spl Q)
  | vector (l : List (Pth Q))
  | other (q1 q2 : Q) (length : ℝ)

mutual
/-- `appendEquivalentSpline`: spline-gradient-based-abstract.cc:165-214; `dist` is the distance of the problem, read only if the length is not positive.
Constraints of the paths are not modelled. -/
noncomputable def append (solve : ℕ → List SRow → ℕ → ℕ → ℝ) (diff : Q → Q → ℕ → ℝ) (dist : Q → Q → ℝ) (n : ℕ) : Pth Q → Except Err (List (Spl Q))
  | .straight q1 q2 L => (steer0 solve diff n q1 q2 L (dist q1 q2)).map fun s => [s]
  | .interpolated q1 q2 L k => if 2 < k then .error .logic else (steer0 solve diff n q1 q2 L (dist q1 q2)).map fun s => [s]
  | .spline s => .ok [s]
  | .vector l => appendAll solve diff dist n l
  | .other _ _ _ => .error .logic
noncomputable def appendAll (solve : ℕ → List SRow → ℕ → ℕ → ℝ) (diff : Q → Q → ℕ → ℝ) (dist : Q → Q → ℝ) (n : ℕ) : List (Pth Q) → Except Err (List (Spl Q))
  | [] => .ok []
  | x :: l => do
    let a ← append solve diff dist n x
    let b ← appendAll solve diff dist n l
    pure (a ++ b)
end

mutual
/-- The elementary paths of a path, in order: `PathVector::flatten`. -/
def leaves : Pth Q → List (Pth Q)
  | .vector l => leavesAll l
  | .straight q1 q2 L => [.straight q1 q2 L]
  | .interpolated q1 q2 L k => [.interpolated q1 q2 L k]
  | .spline s => [.spline s]
  | .other q1 q2 L => [.other q1 q2 L]
def leavesAll : List (Pth Q) → List (Pth Q)
  | [] => []
  | x :: l => leaves x ++ leavesAll l
end

/-- Length of an elementary path (never read for a vector). -/
noncomputable def Pth.length : Pth Q → ℝ
  | .straight _ _ L => L
  | .interpolated _ _ L _ => L
  | .spline s => s.s1 - s.s0
  | .vector _ => 0
  | .other _ _ L => L

/-- `cleanInput`: spline-gradient-based-abstract.cc:126-140. -/
noncomputable def clean (l : List (Pth Q)) : List (Pth Q) := (leavesAll l).filter fun p => decide (0 < p.length)

/-- A path that the optimizer cannot replace. -/
def Pth.Unsupported : Pth Q → Prop
  | .other _ _ _ => True
  | .interpolated _ _ _ k => 2 < k
  | _ => False

/-- A spline that replaces an elementary path: the path itself if it is a spline; else a spline of degree `n` with the same ends and length and with null
derivatives of orders `1` to `(n - 1) / 2` at both ends, following the segment between the ends. -/
def Replaces (diff : Q → Q → ℕ → ℝ) (integrate : Q → (ℕ → ℝ) → Q) (n : ℕ) (s : Spl Q) : Pth Q → Prop
  | .straight q1 q2 L => Between q1 q2 L
  | .interpolated q1 q2 L _ => Between q1 q2 L
  | .spline s' => s = s'
  | _ => False
where
  /-- The spline goes from `q1` to `q2` along the segment. -/
  Between (q1 q2 : Q) (L : ℝ) : Prop := s.n = n ∧ s.base = q1 ∧ s.s0 = 0 ∧ s.s1 = L ∧ s.compute integrate s.s0 = q1 ∧ s.compute integrate s.s1 = q2 ∧
    (∀ d k, 1 ≤ k → k ≤ (n - 1) / 2 → s.derivative s.s0 k d = some 0 ∧ s.derivative s.s1 k d = some 0) ∧
    ∀ q, (∃ t ∈ Set.Icc 0 L, s.compute integrate t = q) ↔ ∃ t ∈ Set.Icc (0 : ℝ) 1, integrate q1 (fun d => t * diff q2 q1 d) = q

theorem steer0_between (hs : Solver solve) (hg : Group diff integrate) (h : ℕ) (q1 q2 : Q) (L dist : ℝ) (hL : 0 < L) :
    ∃ s, steer0 solve diff (2 * h + 1) q1 q2 L dist = .ok s ∧ Replaces.Between diff integrate (2 * h + 1) s q1 q2 L := by
  have hb : ∀ k ∈ (defaultDer (2 * h + 1)).orders, 1 ≤ k ∧ k ≤ h := fun k hk => by have := defaultDer_mem hk; omega
  obtain ⟨p, hp, e1, e2, e3, e4, e5, e6, e7, e8⟩ := C90_steer hs hg (2 * h + 1) q1 q2 (defaultDer (2 * h + 1)) (defaultDer (2 * h + 1)) L dist h h (by omega)
    (by simp [defaultDer]) (by simp [defaultDer]) (defaultDer_nodup _) (defaultDer_nodup _) hb hb (Or.inl hL)
  obtain ⟨p', hp', _, _, him⟩ := C90_straight hs hg h q1 q2 L dist (Or.inl hL)
  have : p' = p := by
    unfold steer0 at hp'
    rw [hp] at hp'
    exact (Except.ok.inj hp').symm
  subst this
  rw [if_pos hL] at e4
  refine ⟨p', hp, e1, e2, e3, e4, e5, e6, fun d k hk1 hk => ?_, fun q => by rw [← e4]; exact him q⟩
  have hg0 : (defaultDer (2 * h + 1)).orders[k - 1]? = some k := defaultDer_get.2 ⟨by omega, by omega⟩
  exact ⟨e7 (k - 1) k hg0 d, e8 (k - 1) k hg0 d⟩

theorem leaves_leaf : ∀ (l : List (Pth Q)), (∀ x ∈ l, ∀ l', x ≠ .vector l') → leavesAll l = l
  | [], _ => by rw [leavesAll]
  | x :: l, h => by
    rw [leavesAll, leaves_leaf l fun y hy => h y (List.mem_cons_of_mem _ hy)]
    have hx := h x List.mem_cons_self
    cases x with
    | vector l' => exact absurd rfl (hx l')
    | straight => rw [leaves]; rfl
    | interpolated => rw [leaves]; rfl
    | spline => rw [leaves]; rfl
    | other => rw [leaves]; rfl

mutual
theorem leaves_not_vector (p : Pth Q) : ∀ x ∈ leaves p, ∀ l', x ≠ .vector l' := by
  cases p with
  | vector l => rw [leaves]; exact leavesAll_not_vector l
  | straight => rw [leaves]; intro x hx l' he; rw [List.mem_singleton.1 hx] at he; cases he
  | interpolated => rw [leaves]; intro x hx l' he; rw [List.mem_singleton.1 hx] at he; cases he
  | spline => rw [leaves]; intro x hx l' he; rw [List.mem_singleton.1 hx] at he; cases he
  | other => rw [leaves]; intro x hx l' he; rw [List.mem_singleton.1 hx] at he; cases he
theorem leavesAll_not_vector (l : List (Pth Q)) : ∀ x ∈ leavesAll l, ∀ l', x ≠ .vector l' := by
  cases l with
  | nil => rw [leavesAll]; intro x hx; cases hx
  | cons p l =>
    rw [leavesAll]
    intro x hx
    rcases List.mem_append.1 hx with hx | hx
    · exact leaves_not_vector p x hx
    · exact leavesAll_not_vector l x hx
end

theorem appendAll_leaves (hs : Solver solve) (hg : Group diff integrate) (dist : Q → Q → ℝ) (h : ℕ) : ∀ (l : List (Pth Q)), (∀ x ∈ l, ∀ l', x ≠ .vector l') → (∀ x ∈ l, 0 < x.length) →
    (appendAll solve diff dist (2 * h + 1) l = .error .logic ∧ ∃ x ∈ l, x.Unsupported) ∨
    ∃ splines, appendAll solve diff dist (2 * h + 1) l = .ok splines ∧ (∀ x ∈ l, ¬x.Unsupported) ∧ List.Forall₂ (Replaces diff integrate (2 * h + 1)) splines l
  | [], _, _ => Or.inr ⟨[], by rw [appendAll], by simp, List.Forall₂.nil⟩
  | x :: l, hv, hp => by
    have hx : (append solve diff dist (2 * h + 1) x = .error .logic ∧ x.Unsupported) ∨
        ∃ s, append solve diff dist (2 * h + 1) x = .ok [s] ∧ ¬x.Unsupported ∧ Replaces diff integrate (2 * h + 1) s x := by
      have hpx := hp x List.mem_cons_self
      cases x with
      | vector l' => exact absurd rfl (hv _ List.mem_cons_self l')
      | other => exact Or.inl ⟨by rw [append], trivial⟩
      | spline s => exact Or.inr ⟨s, by rw [append], fun h => h, rfl⟩
      | straight q1 q2 L =>
        obtain ⟨s, h1, h2⟩ := steer0_between hs hg h q1 q2 L (dist q1 q2) hpx
        exact Or.inr ⟨s, by rw [append, h1]; rfl, fun h => h, h2⟩
      | interpolated q1 q2 L k =>
        obtain ⟨s, h1, h2⟩ := steer0_between hs hg h q1 q2 L (dist q1 q2) hpx
        by_cases hk : 2 < k
        · exact Or.inl ⟨by rw [append, if_pos hk], hk⟩
        · exact Or.inr ⟨s, by rw [append, if_neg hk, h1]; rfl, hk, h2⟩
    rw [appendAll]
    simp only [bind, Except.bind, pure, Except.pure]
    rcases hx with ⟨e, hu⟩ | ⟨s, e, hu, hr⟩
    · exact Or.inl ⟨by rw [e], x, List.mem_cons_self, hu⟩
    · rw [e]
      rcases appendAll_leaves hs hg dist h l (fun y hy => hv y (List.mem_cons_of_mem _ hy)) (fun y hy => hp y (List.mem_cons_of_mem _ hy)) with ⟨e', y, hy, hu'⟩ | ⟨ss, e', hu', hr'⟩
      · exact Or.inl ⟨by rw [e'], y, List.mem_cons_of_mem _ hy, hu'⟩
      · refine Or.inr ⟨s :: ss, by rw [e']; rfl, ?_, List.Forall₂.cons hr hr'⟩
        intro y hy
        rcases List.mem_cons.1 hy with rfl | hy
        · exact hu
        · exact hu' y hy

/-- C90: the optimizer replaces the elementary paths of positive length of the input, each by one spline with the same ends and length, and throws if one of
them is of an unknown type or has been interpolated with more than two points. -/
theorem C90_append (hs : Solver solve) (hg : Group diff integrate) (dist : Q → Q → ℝ) (h : ℕ) (l : List (Pth Q)) :
    (appendAll solve diff dist (2 * h + 1) (clean l) = .error .logic ∧ ∃ x ∈ leavesAll l, 0 < x.length ∧ x.Unsupported) ∨
    ∃ splines, appendAll solve diff dist (2 * h + 1) (clean l) = .ok splines ∧ (∀ x ∈ leavesAll l, 0 < x.length → ¬x.Unsupported) ∧
      List.Forall₂ (Replaces diff integrate (2 * h + 1)) splines ((leavesAll l).filter fun p => decide (0 < p.length)) := by
  rcases appendAll_leaves hs hg dist h (clean l) (fun x hx => leavesAll_not_vector l x (List.mem_filter.1 hx).1)
    (fun x hx => of_decide_eq_true (List.mem_filter.1 hx).2) with ⟨e, x, hx, hu⟩ | ⟨ss, e, hu, hr⟩
  · exact Or.inl ⟨e, x, (List.mem_filter.1 hx).1, of_decide_eq_true (List.mem_filter.1 hx).2, hu⟩
  · exact Or.inr ⟨ss, e, fun x hx hp => hu x (List.mem_filter.2 ⟨hx, decide_eq_true hp⟩), hr⟩

/-! ## Vector spaces -/

/-- Difference in a vector space. -/
def vdiff (q b : ℕ → ℝ) : ℕ → ℝ := fun d => q d - b d

theorem vgroup : Group vdiff integ := ⟨fun q => by funext d; exact sub_self _, fun q b => by funext d; simp [vdiff, integ]⟩

/-- A solver exists. -/
theorem exists_solver : ∃ solve, Solver solve := by
  classical
  refine ⟨fun n rows i d => if ∀ r ∈ rows, ∀ i, r.c i = 0 then 0 else if h : ∃ p, Solution n rows d p then h.choose i else 0, ⟨?_, ?_⟩⟩
  · intro n rows d h
    by_cases hz : ∀ r ∈ rows, ∀ i, r.c i = 0
    · simp only [if_pos hz]
      obtain ⟨p, hp⟩ := h
      intro r hr
      rw [← hp r hr]
      refine Finset.sum_congr rfl fun i _ => ?_
      rw [hz r hr i, mul_zero, mul_zero]
    · simp only [if_neg hz, dif_pos h]
      exact h.choose_spec
  · intro n rows hz i d
    simp only [if_pos hz]

/-- C90: straight paths that follow each other are replaced by splines that follow each other, with null derivatives at all the waypoints: the equality
constraints of the optimizer are satisfied by its initial path (see `C89_continuity`). -/
theorem C90_smooth {m h : ℕ} (wp : ℕ → ℕ → ℝ) (L : ℕ → ℝ) (splines : List VSpl)
    (hs : ∀ j s, splines[j]? = some s → Replaces.Between vdiff integ (2 * h + 1) s (wp j) (wp (j + 1)) (L j)) : Smooth m h splines := by
  have hh : (2 * h + 1 - 1) / 2 = h := by omega
  refine ⟨?_, ?_, ?_⟩
  · intro j s t hj hj' d _
    obtain ⟨_, _, _, _, _, a, b, _⟩ := hs j s hj
    obtain ⟨_, _, _, _, a', _, b', _⟩ := hs (j + 1) t hj'
    refine ⟨by rw [a, a'], fun k hk1 hk => ?_⟩
    rw [(b d k hk1 (by omega)).2, (b' d k hk1 (by omega)).1]
  · intro s hj d _ k hk1 hk
    obtain ⟨_, _, _, _, _, _, b, _⟩ := hs 0 s (head_get hj)
    exact (b d k hk1 (by omega)).1
  · intro s hj d _ k hk1 hk
    rw [List.getLast?_eq_getElem?] at hj
    obtain ⟨_, _, _, _, _, _, b, _⟩ := hs _ s hj
    exact (b d k hk1 (by omega)).2

/-- Two straight paths in the plane satisfy the hypotheses of `C89_continuity`. -/
example : ∃ l : List (VSpl × List ℕ), l.length = 2 ∧ Valid 2 3 l ∧ Smooth 2 1 (l.map Prod.fst) ∧
    ∃ s, l.head? = some (s, [0, 1]) ∧ s.compute integ s.s0 ≠ s.compute integ s.s1 := by
  obtain ⟨solve, hsol⟩ := exists_solver
  let wp : ℕ → ℕ → ℝ := fun j d => if d = 0 then j else j * j
  obtain ⟨s, _, hs⟩ := steer0_between hsol vgroup 1 (wp 0) (wp 1) 1 0 one_pos
  obtain ⟨t, _, ht⟩ := steer0_between hsol vgroup 1 (wp 1) (wp 2) 2 0 two_pos
  refine ⟨[(s, [0, 1]), (t, [0, 1])], rfl, ⟨?_, ?_, ?_⟩, C90_smooth (h := 1) wp (fun j => if j = 0 then 1 else 2) _ ?_, s, rfl, ?_⟩
  · intro x hx
    rcases List.mem_cons.1 hx with rfl | hx
    · exact hs.1
    · rw [List.mem_singleton.1 hx]; exact ht.1
  · intro x hx
    rcases List.mem_cons.1 hx with rfl | hx
    · show s.s0 < s.s1
      rw [hs.2.2.1, hs.2.2.2.1]; exact one_pos
    · rw [List.mem_singleton.1 hx]
      show t.s0 < t.s1
      rw [ht.2.2.1, ht.2.2.2.1]; exact two_pos
  · intro x hx d hd
    rcases List.mem_cons.1 hx with rfl | hx
    · simp at hd; omega
    · rw [List.mem_singleton.1 hx] at hd; simp at hd; omega
  · intro j u hj
    match j with
    | 0 => simp at hj; subst hj; simpa using hs
    | 1 => simp at hj; subst hj; simpa using ht
    | j + 2 => simp at hj
  · rw [hs.2.2.2.2.1, hs.2.2.2.2.2.1]
    intro e
    have := congrFun e 0
    simp [wp] at this

end Verif.SplineOpt
