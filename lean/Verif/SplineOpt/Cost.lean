import Verif.SplineOpt.Params
import Verif.Path.SplineIntegral
import Mathlib.Tactic.Linarith
set_option linter.unusedSectionVars false

/-!
# Cost of a vector of splines (C92)

`L2NormSquaredOfDerivative`: src/path-optimization/spline-gradient-based/cost.hh.  A matrix is the list of its non null entries, `((row, column), value)`.
-/
namespace Verif.SplineOpt
open Verif.Spline

variable {Q : Type}

/-- Constructor: cost.hh:50-71, for splines of degree `n`: `false` when it throws. -/
def costOk (n order : ℕ) : Bool := decide (¬ 2 * n + 3 ≤ 2 * order - 1)

/-- `lambda_.maxCoeff ()`: cost.hh:76. -/
noncomputable def maxCoeff : List ℝ → ℝ
  | [] => 0
  | [x] => x
  | x :: y :: l => max x (maxCoeff (y :: l))

/-- `computeLambdasFromSplineLength`: cost.hh:73-80, `xs` are the values of `squaredNormIntegral`; `none` is a value that is not finite. -/
noncomputable def lambdas (xs : List ℝ) : List (Option ℝ) :=
  xs.map fun x => if 1e-6 * maxCoeff xs < x then (if x = 0 then none else some x⁻¹) else if maxCoeff xs = 0 then none else some (1e6 / maxCoeff xs)

/-- `value`: cost.hh:82-87; `none` as for `squaredNormIntegral`. -/
noncomputable def value (m order : ℕ) : List ℝ → List (Spl Q) → Option ℝ
  | l :: ls, s :: ss =>
    match s.squaredNormIntegral m order, value m order ls ss with
    | some a, some r => some (l * a + r)
    | _, _ => none
  | _, _ => some 0

/-- `jacobian`: cost.hh:89-100, the entries of the vector; `col` is the local variable. -/
noncomputable def jacobianFrom (m nb order : ℕ) : ℕ → List ℝ → List (Spl Q) → List (ℕ × ℝ)
  | col, l :: ls, s :: ss =>
    ((List.range nb).flatMap fun j => (List.range m).map fun d => (col + (j * m + d), s.squaredNormIntegralDerivative order j d * l)) ++
      jacobianFrom m nb order (col + m * nb) ls ss
  | _, _, _ => []

noncomputable def jacobian (m nb order : ℕ) (lam : List ℝ) (splines : List (Spl Q)) : List (ℕ × ℝ) := jacobianFrom m nb order 0 lam splines

/-- `hessian`: cost.hh:102-143 without the checks of debug mode; `k` is the local variable. -/
noncomputable def hessianFrom (m nb order : ℕ) : ℕ → List ℝ → List (Spl Q) → List ((ℕ × ℕ) × ℝ)
  | k, l :: ls, s :: ss =>
    ((List.range nb).flatMap fun i => (List.range nb).flatMap fun j => (List.range m).map fun d =>
      ((k * (m * nb) + (i * m + d), k * (m * nb) + (j * m + d)), 2 * (s.Ic order i j).getD 0 * l)) ++ hessianFrom m nb order (k + 1) ls ss
  | _, _, _ => []

noncomputable def hessian (m nb order : ℕ) (lam : List ℝ) (splines : List (Spl Q)) : List ((ℕ × ℕ) × ℝ) := hessianFrom m nb order 0 lam splines

/-! ## Specification -/

/-- `xᵀ H y`. -/
def quad (H : List ((ℕ × ℕ) × ℝ)) (x y : ℕ → ℝ) : ℝ := (H.map fun e => e.2 * x e.1.1 * y e.1.2).sum

/-- The documented cost: weighted sum of the squared norms of the derivatives, each integrated along its spline (up to the factor of C78). -/
noncomputable def specCost (m order : ℕ) : List ℝ → List (Spl Q) → ℝ
  | l :: ls, s :: ss => l * (s.normIntegral m order / (s.n.descFactorial order : ℝ)) + specCost m order ls ss
  | _, _ => 0

/-! ## Lemmas -/

/-- The quadratic form of a spline. -/
noncomputable def form (n m : ℕ) (c : ℕ → ℕ → ℝ) (P R : ℕ → ℕ → ℝ) : ℝ :=
  ∑ i ∈ Finset.range (n + 1), ∑ j ∈ Finset.range (n + 1), (∑ d ∈ Finset.range m, P i d * R j d) * c i j

theorem sni_form (s : Spl Q) (m order : ℕ) (ho : order ≤ s.n + 1) :
    s.squaredNormIntegral m order = some (form s.n m (fun i j => (s.Ic order i j).getD 0) s.P s.P) := by
  unfold Spl.squaredNormIntegral form
  rw [if_neg (by omega)]

theorem form_congr {n m : ℕ} {c : ℕ → ℕ → ℝ} {P P' R R' : ℕ → ℕ → ℝ} (h : ∀ i ≤ n, ∀ d < m, P i d = P' i d) (h' : ∀ i ≤ n, ∀ d < m, R i d = R' i d) :
    form n m c P R = form n m c P' R' := by
  unfold form
  refine Finset.sum_congr rfl fun i hi => Finset.sum_congr rfl fun j hj => ?_
  congr 1
  refine Finset.sum_congr rfl fun d hd => ?_
  rw [h i (Nat.lt_succ_iff.1 (Finset.mem_range.1 hi)) d (Finset.mem_range.1 hd), h' j (Nat.lt_succ_iff.1 (Finset.mem_range.1 hj)) d (Finset.mem_range.1 hd)]

/-- The form is positive. -/
theorem form_nonneg (s : Spl Q) (h : s.s0 ≤ s.s1) (m order : ℕ) (ho : order ≤ s.n + 1) (P : ℕ → ℕ → ℝ) :
    0 ≤ form s.n m (fun i j => (s.Ic order i j).getD 0) P P := by
  have he : some (form s.n m (fun i j => (s.Ic order i j).getD 0) P P) = ({ s with P := P } : Spl Q).squaredNormIntegral m order :=
    (sni_form ({ s with P := P } : Spl Q) m order ho).symm
  rcases eq_or_lt_of_le h with h | h
  · have : ∀ i j, (s.Ic order i j).getD 0 = 0 := by
      intro i j
      unfold Spl.Ic
      rw [if_neg (by omega), if_pos (by rw [h, sub_self])]
      rfl
    unfold form
    simp only [this, mul_zero, Finset.sum_const_zero, le_refl]
  · rcases Nat.lt_or_ge s.n order with hn | hn
    · have := (C78_range ({ s with P := P } : Spl Q) m order).2 (by show order = s.n + 1; omega)
      rw [this] at he
      rw [Option.some.inj he]
    · obtain ⟨r, h1, h2⟩ := C78_integral_partial ({ s with P := P } : Spl Q) h m order hn
      rw [h1] at he
      rw [Option.some.inj he]
      have hp : (0 : ℝ) < (s.n.descFactorial order : ℝ) := by
        exact_mod_cast Nat.descFactorial_pos.2 hn
      have hi : 0 ≤ ({ s with P := P } : Spl Q).normIntegral m order := by
        unfold Spl.normIntegral
        exact intervalIntegral.integral_nonneg h.le fun u _ => Finset.sum_nonneg fun d _ => sq_nonneg _
      rw [← h2] at hi
      exact nonneg_of_mul_nonneg_right hi hp

/-- The form is convex. -/
theorem form_convex {n m : ℕ} {c : ℕ → ℕ → ℝ} (hpos : ∀ P, 0 ≤ form n m c P P) (P R : ℕ → ℕ → ℝ) {a : ℝ} (h0 : 0 ≤ a) (h1 : a ≤ 1) :
    form n m c (fun i d => (1 - a) * P i d + a * R i d) (fun i d => (1 - a) * P i d + a * R i d) ≤ (1 - a) * form n m c P P + a * form n m c R R := by
  have key : form n m c (fun i d => (1 - a) * P i d + a * R i d) (fun i d => (1 - a) * P i d + a * R i d) +
      a * (1 - a) * form n m c (fun i d => P i d - R i d) (fun i d => P i d - R i d) = (1 - a) * form n m c P P + a * form n m c R R := by
    unfold form
    simp only [Finset.mul_sum, Finset.sum_mul]
    rw [← Finset.sum_add_distrib, ← Finset.sum_add_distrib]
    refine Finset.sum_congr rfl fun i _ => ?_
    rw [← Finset.sum_add_distrib, ← Finset.sum_add_distrib]
    refine Finset.sum_congr rfl fun j _ => ?_
    rw [← Finset.sum_add_distrib, ← Finset.sum_add_distrib]
    refine Finset.sum_congr rfl fun d _ => ?_
    ring
  have := mul_nonneg (mul_nonneg h0 (by linarith : (0 : ℝ) ≤ 1 - a)) (hpos fun i d => P i d - R i d)
  linarith

/-! ## Theorems -/

/-- C92: a cost which is constructed never reads out of range, whatever splines it is given, and its value is the documented one. -/
theorem C92_value_partial (m n order : ℕ) (hok : costOk n order = true) (lam : List ℝ) (splines : List (Spl Q)) (hn : ∀ s ∈ splines, s.n = n) :
    ∃ v, value m order lam splines = some v ∧
      ((∀ s ∈ splines, s.s0 < s.s1) → order ≤ n → v = specCost m order lam splines) ∧
      ((∀ l ∈ lam, 0 ≤ l) → (∀ s ∈ splines, s.s0 ≤ s.s1) → 0 ≤ v) := by
  have ho : order ≤ n + 1 := by have := of_decide_eq_true hok; omega
  induction splines generalizing lam with
  | nil => cases lam <;> exact ⟨0, rfl, fun _ _ => rfl, fun _ _ => le_rfl⟩
  | cons s ss ih =>
    cases lam with
    | nil => exact ⟨0, rfl, fun _ _ => rfl, fun _ _ => le_rfl⟩
    | cons l ls =>
      obtain ⟨v, hv, h1, h2⟩ := ih ls (fun t ht => hn t (List.mem_cons_of_mem _ ht))
      have hs := hn s (List.mem_cons_self ..)
      have hf := sni_form s m order (by omega)
      refine ⟨l * form s.n m (fun i j => (s.Ic order i j).getD 0) s.P s.P + v, ?_, ?_, ?_⟩
      · rw [value, hf, hv]
      · intro hr hon
        rw [specCost, ← h1 (fun t ht => hr t (List.mem_cons_of_mem _ ht)) hon]
        congr 2
        obtain ⟨r, e1, e2⟩ := C78_integral_partial s (hr s (List.mem_cons_self ..)) m order (by omega)
        rw [hf] at e1
        rw [Option.some.inj e1, ← e2]
        have hp : (0 : ℝ) < (s.n.descFactorial order : ℝ) := by
          exact_mod_cast Nat.descFactorial_pos.2 (by omega)
        field_simp
      · intro hl hr
        have a1 := mul_nonneg (hl l (List.mem_cons_self ..)) (form_nonneg s (hr s (List.mem_cons_self ..)) m order (by omega) s.P)
        have a2 := h2 (fun t ht => hl t (List.mem_cons_of_mem _ ht)) (fun t ht => hr t (List.mem_cons_of_mem _ ht))
        linarith

/-- C92: the constructor refuses exactly the orders for which the squared norm cannot be computed. -/
theorem C92_refused [Nonempty Q] (m n order : ℕ) : costOk n order = false ↔ ∀ s : Spl Q, s.n = n → s.squaredNormIntegral m order = none := by
  constructor
  · intro h s hs
    have h' := of_decide_eq_false h
    rw [(C78_range s m order).1, hs]
    omega
  · intro h
    obtain ⟨b⟩ := ‹Nonempty Q›
    have := (C78_range (⟨n, b, fun _ _ => 0, 0, 1⟩ : Spl Q) m order).1.1 (h _ rfl)
    have hh : n + 2 ≤ order := this
    exact decide_eq_false (by omega)

theorem sum_map_range (n : ℕ) (g : ℕ → ℝ) : ((List.range n).map g).sum = ∑ i ∈ Finset.range n, g i := by
  induction n with
  | zero => simp
  | succ n ih => rw [List.range_succ, List.map_append, List.sum_append, ih, Finset.sum_range_succ]; simp

theorem sum_flatMap_range {α : Type} (n : ℕ) (f : ℕ → List α) (g : α → ℝ) :
    (((List.range n).flatMap f).map g).sum = ∑ i ∈ Finset.range n, ((f i).map g).sum := by
  induction n with
  | zero => simp
  | succ n ih => rw [List.range_succ, List.flatMap_append, List.map_append, List.sum_append, ih, Finset.sum_range_succ]; simp

theorem Ic_like {s t : Spl Q} (h : Like s t) (order i j : ℕ) : s.Ic order i j = t.Ic order i j := by
  unfold Spl.Ic
  rw [h.1, h.2.2.1, h.2.2.2]

/-- Product of the block of a spline. -/
theorem quad_block {m nb order k : ℕ} (l : ℝ) {s : Spl Q} {X Y : List (Spl Q)} {x y : Spl Q} (hx : X[k]? = some x) (hy : Y[k]? = some y) (hs : s.n + 1 = nb) :
    quad ((List.range nb).flatMap fun i => (List.range nb).flatMap fun j => (List.range m).map fun d =>
      ((k * (m * nb) + (i * m + d), k * (m * nb) + (j * m + d)), 2 * (s.Ic order i j).getD 0 * l)) (concat m nb X) (concat m nb Y) =
      2 * l * form s.n m (fun i j => (s.Ic order i j).getD 0) x.P y.P := by
  unfold quad form
  rw [sum_flatMap_range, hs, Finset.mul_sum]
  refine Finset.sum_congr rfl fun i hi => ?_
  rw [sum_flatMap_range, Finset.mul_sum]
  refine Finset.sum_congr rfl fun j hj => ?_
  rw [List.map_map, sum_map_range, Finset.sum_mul, Finset.mul_sum]
  refine Finset.sum_congr rfl fun d hd => ?_
  show 2 * (s.Ic order i j).getD 0 * l * concat m nb X (k * (m * nb) + (i * m + d)) * concat m nb Y (k * (m * nb) + (j * m + d)) = _
  rw [concat_at hx (Finset.mem_range.1 hi) (Finset.mem_range.1 hd), concat_at hy (Finset.mem_range.1 hj) (Finset.mem_range.1 hd)]
  ring

theorem quad_append (H H' : List ((ℕ × ℕ) × ℝ)) (x y : ℕ → ℝ) : quad (H ++ H') x y = quad H x y + quad H' x y := by simp [quad]

theorem hessianFrom_value (m nb order : ℕ) (X : List (Spl Q)) : ∀ (ls : List ℝ) (ss xs : List (Spl Q)) (k : ℕ), List.Forall₂ Like xs ss →
    (∀ s ∈ ss, s.n + 1 = nb) → order ≤ nb → (∀ j x, xs[j]? = some x → X[k + j]? = some x) →
    some (1 / 2 * quad (hessianFrom m nb order k ls ss) (concat m nb X) (concat m nb X)) = value m order ls xs := by
  intro ls
  induction ls with
  | nil => intro ss xs k _ _ _ _; simp [hessianFrom, value, quad]
  | cons l ls ih =>
    intro ss xs k hl hn ho hX
    cases hl with
    | nil => simp [hessianFrom, value, quad]
    | @cons x s xs ss h0 hl =>
      have hs := hn s (List.mem_cons_self ..)
      have := ih ss xs (k + 1) hl (fun t ht => hn t (List.mem_cons_of_mem _ ht)) ho
        (fun j x' hj => by have := hX (j + 1) x' (by simpa using hj); rwa [show k + 1 + j = k + (j + 1) by omega])
      have hk : X[k]? = some x := by simpa using hX 0 x (by simp)
      rw [value, ← this, sni_form x m order (by rw [h0.1]; omega), hessianFrom, quad_append, quad_block l hk hk hs]
      simp only [Ic_like h0, h0.1]
      congr 1
      ring

/-- C92: the hessian is computed once, for the initial splines; it gives the value of the cost for all control points. -/
theorem C92_hessian (m nb order : ℕ) (lam : List ℝ) (splines out : List (Spl Q)) (hl : List.Forall₂ Like out splines) (hn : ∀ s ∈ splines, s.n + 1 = nb)
    (ho : order ≤ nb) :
    value m order lam out = some (1 / 2 * quad (hessian m nb order lam splines) (concat m nb out) (concat m nb out)) :=
  (hessianFrom_value m nb order out lam splines out 0 hl hn ho (fun j x hj => by simpa using hj)).symm

theorem dot_block2 {m nb order k : ℕ} (l : ℝ) {s : Spl Q} {Y : List (Spl Q)} {y : Spl Q} (hy : Y[k]? = some y) (hs : s.n + 1 = nb) :
    dot ((List.range nb).flatMap fun j => (List.range m).map fun d => (k * (m * nb) + (j * m + d), s.squaredNormIntegralDerivative order j d * l)) (concat m nb Y) =
      2 * l * form s.n m (fun i j => (s.Ic order i j).getD 0) s.P y.P := by
  unfold dot form
  rw [sum_flatMap_range, Finset.sum_comm, hs, Finset.mul_sum]
  refine Finset.sum_congr rfl fun j hj => ?_
  rw [List.map_map, sum_map_range]
  have h1 : ∀ d ∈ Finset.range m, ((fun e : ℕ × ℝ => e.2 * concat m nb Y e.1) ∘ fun d => (k * (m * nb) + (j * m + d), s.squaredNormIntegralDerivative order j d * l)) d =
      ∑ i ∈ Finset.range nb, 2 * l * (s.P i d * y.P j d * (s.Ic order i j).getD 0) := by
    intro d hd
    show s.squaredNormIntegralDerivative order j d * l * concat m nb Y (k * (m * nb) + (j * m + d)) = _
    rw [concat_at hy (Finset.mem_range.1 hj) (Finset.mem_range.1 hd)]
    unfold Spl.squaredNormIntegralDerivative
    rw [hs, Finset.mul_sum, Finset.sum_mul, Finset.sum_mul]
    exact Finset.sum_congr rfl fun i _ => by ring
  rw [Finset.sum_congr rfl h1, Finset.sum_comm, Finset.mul_sum]
  refine Finset.sum_congr rfl fun i _ => ?_
  rw [Finset.sum_mul, Finset.mul_sum]

theorem jacobianFrom_hessian (m nb order : ℕ) (X Y : List (Spl Q)) : ∀ (ls : List ℝ) (ss xs ys : List (Spl Q)) (k : ℕ), List.Forall₂ Like xs ss → ys.length = xs.length →
    (∀ s ∈ ss, s.n + 1 = nb) → (∀ j x, xs[j]? = some x → X[k + j]? = some x) → (∀ j y, ys[j]? = some y → Y[k + j]? = some y) →
    dot (jacobianFrom m nb order (k * (m * nb)) ls xs) (concat m nb Y) = quad (hessianFrom m nb order k ls ss) (concat m nb X) (concat m nb Y) := by
  intro ls
  induction ls with
  | nil => intro ss xs ys k _ _ _ _ _; simp [hessianFrom, jacobianFrom, quad, dot]
  | cons l ls ih =>
    intro ss xs ys k hl hlen hn hX hY
    cases hl with
    | nil => simp [hessianFrom, jacobianFrom, quad, dot]
    | @cons x s xs ss h0 hl =>
      cases ys with
      | nil => simp at hlen
      | cons y ys =>
      have hs := hn s (List.mem_cons_self ..)
      have := ih ss xs ys (k + 1) hl (by simpa using hlen) (fun t ht => hn t (List.mem_cons_of_mem _ ht))
        (fun j x' hj => by have := hX (j + 1) x' (by simpa using hj); rwa [show k + 1 + j = k + (j + 1) by omega])
        (fun j x' hj => by have := hY (j + 1) x' (by simpa using hj); rwa [show k + 1 + j = k + (j + 1) by omega])
      have hk : X[k]? = some x := by simpa using hX 0 x (by simp)
      have hy : Y[k]? = some y := by simpa using hY 0 y (by simp)
      rw [jacobianFrom, hessianFrom, quad_append, dot_append, quad_block l hk hy hs, dot_block2 l hy (by rw [h0.1]; exact hs),
        show k * (m * nb) + m * nb = (k + 1) * (m * nb) by ring, this]
      simp only [Ic_like h0, h0.1]

theorem quad_symm (m nb order : ℕ) (X Y : List (Spl Q)) : ∀ (ls : List ℝ) (ss : List (Spl Q)) (k : ℕ), (∀ s ∈ ss, s.n + 1 = nb) →
    (∀ j < ss.length, k + j < X.length) → (∀ j < ss.length, k + j < Y.length) →
    quad (hessianFrom m nb order k ls ss) (concat m nb X) (concat m nb Y) = quad (hessianFrom m nb order k ls ss) (concat m nb Y) (concat m nb X) := by
  intro ls
  induction ls with
  | nil => intro ss k _ _ _; simp [hessianFrom, quad]
  | cons l ls ih =>
    intro ss k hn hX hY
    cases ss with
    | nil => simp [hessianFrom, quad]
    | cons s ss =>
      have hs := hn s (List.mem_cons_self ..)
      obtain ⟨x, hx⟩ : ∃ x, X[k]? = some x := ⟨_, List.getElem?_eq_getElem (by simpa using hX 0 (by simp))⟩
      obtain ⟨y, hy⟩ : ∃ y, Y[k]? = some y := ⟨_, List.getElem?_eq_getElem (by simpa using hY 0 (by simp))⟩
      rw [hessianFrom, quad_append, quad_append, quad_block l hx hy hs, quad_block l hy hx hs,
        ih ss (k + 1) (fun t ht => hn t (List.mem_cons_of_mem _ ht)) (fun j hj => by have := hX (j + 1) (by simpa using hj); omega)
          (fun j hj => by have := hY (j + 1) (by simpa using hj); omega)]
      congr 2
      unfold form
      rw [Finset.sum_comm]
      refine Finset.sum_congr rfl fun i _ => Finset.sum_congr rfl fun j _ => ?_
      show _ * (s.Ic order j i).getD 0 = _ * (s.Ic order i j).getD 0
      rw [Ic_symm s order i j]
      congr 1
      exact Finset.sum_congr rfl fun d _ => mul_comm _ _

theorem quad_smul_add (H : List ((ℕ × ℕ) × ℝ)) (x y z : ℕ → ℝ) (a : ℝ) (h : ∀ e ∈ H, z e.1.1 = x e.1.1 + a * y e.1.1 ∧ z e.1.2 = x e.1.2 + a * y e.1.2) :
    quad H z z = quad H x x + a * (quad H x y + quad H y x) + a * a * quad H y y := by
  unfold quad
  induction H with
  | nil => simp
  | cons e H ih =>
    have := ih fun e' he => h e' (List.mem_cons_of_mem _ he)
    simp only [List.map_cons, List.sum_cons, this, (h e (List.mem_cons_self ..)).1, (h e (List.mem_cons_self ..)).2]
    ring

/-- C92: the jacobian is the gradient of the cost: moving the control points `X` by those of `Y` changes the cost by the product of the jacobian
at `X` and of the motion, plus the cost of the motion, which is of order two. -/
theorem C92_jacobian (m nb order : ℕ) (lam : List ℝ) (X Y Z : List (Spl Q)) (hY : List.Forall₂ Like Y X) (hZ : List.Forall₂ Like Z X) (hn : ∀ s ∈ X, s.n + 1 = nb)
    (ho : order ≤ nb) (hz : ∀ (j : ℕ) (x y z : Spl Q), X[j]? = some x → Y[j]? = some y → Z[j]? = some z → ∀ i < nb, ∀ d < m, z.P i d = x.P i d + y.P i d) :
    ∃ a b c, value m order lam X = some a ∧ value m order lam Y = some b ∧ value m order lam Z = some c ∧
      c = a + dot (jacobian m nb order lam X) (concat m nb Y) + b := by
  have hX : List.Forall₂ Like X X := List.forall₂_same.2 fun x _ => Like.refl x
  have e1 := C92_hessian m nb order lam X X hX hn ho
  have e2 := C92_hessian m nb order lam X Y hY hn ho
  have e3 := C92_hessian m nb order lam X Z hZ hn ho
  refine ⟨_, _, _, e1, e2, e3, ?_⟩
  have ej := jacobianFrom_hessian m nb order X Y lam X X Y 0 hX hY.length_eq hn (fun j x h => by simpa using h) (fun j x h => by simpa using h)
  rw [zero_mul] at ej
  have es := quad_symm m nb order X Y lam X 0 hn (fun j hj => by omega) (fun j hj => by rw [hY.length_eq]; omega)
  have hcol : ∀ e ∈ hessian m nb order lam X, concat m nb Z e.1.1 = concat m nb X e.1.1 + 1 * concat m nb Y e.1.1 ∧
      concat m nb Z e.1.2 = concat m nb X e.1.2 + 1 * concat m nb Y e.1.2 := by
    have : ∀ (ls : List ℝ) (ss : List (Spl Q)) (k : ℕ), (∀ j < ss.length, k + j < X.length) → ∀ e ∈ hessianFrom m nb order k ls ss,
        concat m nb Z e.1.1 = concat m nb X e.1.1 + 1 * concat m nb Y e.1.1 ∧ concat m nb Z e.1.2 = concat m nb X e.1.2 + 1 * concat m nb Y e.1.2 := by
      intro ls
      induction ls with
      | nil => intro ss k _ e he; simp [hessianFrom] at he
      | cons l ls ih =>
        intro ss k hk e he
        cases ss with
        | nil => simp [hessianFrom] at he
        | cons s ss =>
          rw [hessianFrom, List.mem_append] at he
          rcases he with he | he
          · simp only [List.mem_flatMap, List.mem_map, List.mem_range] at he
            obtain ⟨i, hi, j, hj, d, hd, rfl⟩ := he
            have hkx : k < X.length := by simpa using hk 0 (by simp)
            obtain ⟨x, hx⟩ : ∃ x, X[k]? = some x := ⟨_, List.getElem?_eq_getElem hkx⟩
            obtain ⟨y, hy⟩ : ∃ y, Y[k]? = some y := ⟨_, List.getElem?_eq_getElem (by rw [hY.length_eq]; exact hkx)⟩
            obtain ⟨z, hz'⟩ : ∃ z, Z[k]? = some z := ⟨_, List.getElem?_eq_getElem (by rw [hZ.length_eq]; exact hkx)⟩
            simp only [concat_at hx hi hd, concat_at hx hj hd, concat_at hy hi hd, concat_at hy hj hd, concat_at hz' hi hd, concat_at hz' hj hd, one_mul]
            exact ⟨hz k x y z hx hy hz' i hi d hd, hz k x y z hx hy hz' j hj d hd⟩
          · exact ih ss (k + 1) (fun j hj => by have := hk (j + 1) (by simpa using hj); omega) e he
    exact this lam X 0 (fun j hj => by omega)
  have eq := quad_smul_add (hessian m nb order lam X) (concat m nb X) (concat m nb Y) (concat m nb Z) 1 hcol
  have es' : quad (hessian m nb order lam X) (concat m nb X) (concat m nb Y) = quad (hessian m nb order lam X) (concat m nb Y) (concat m nb X) := es
  have ej' : dot (jacobian m nb order lam X) (concat m nb Y) = quad (hessian m nb order lam X) (concat m nb X) (concat m nb Y) := ej
  rw [eq, ej', ← es']
  ring

/-- C92: with weights that are not negative, the interpolation of two vectors of splines costs at most the interpolation of their costs. -/
theorem C92_convex (m n order : ℕ) (lam : List ℝ) (hlam : ∀ l ∈ lam, 0 ≤ l) (A B res : List (Spl Q)) {alpha : ℝ} (h0 : 0 ≤ alpha) (h1 : alpha ≤ 1)
    (hA : List.Forall₂ Like A res) (hB : List.Forall₂ Like B res) (hn : ∀ s ∈ res, s.n = n) (hr : ∀ s ∈ res, s.s0 ≤ s.s1) (ho : order ≤ n + 1) :
    ∃ a b c, value m order lam A = some a ∧ value m order lam B = some b ∧ value m order lam (interpolate m A B alpha res) = some c ∧
      c ≤ (1 - alpha) * a + alpha * b := by
  induction lam generalizing A B res with
  | nil => exact ⟨0, 0, 0, by simp [value], by simp [value], by simp [value], by simp⟩
  | cons l ls ih =>
    cases hA with
    | nil => cases hB with
      | nil => exact ⟨0, 0, 0, by simp [value], by simp [value], by simp [value, interpolate], by simp⟩
    | @cons x s A res hx hA =>
      cases hB with
      | @cons y _ B _ hy hB =>
        obtain ⟨a, b, c, e1, e2, e3, hc⟩ := ih (fun l hl => hlam l (List.mem_cons_of_mem _ hl)) A B res hA hB
          (fun t ht => hn t (List.mem_cons_of_mem _ ht)) (fun t ht => hr t (List.mem_cons_of_mem _ ht))
        have hs := hn s (List.mem_cons_self ..)
        have f1 := sni_form x m order (by rw [hx.1]; omega)
        have f2 := sni_form y m order (by rw [hy.1]; omega)
        have f3 := sni_form (setRow m s fun c => (1 - alpha) * row m x c + alpha * row m y c) m order (by show order ≤ s.n + 1; omega)
        simp only [Ic_like hx, Ic_like hy, hx.1, hy.1] at f1 f2
        refine ⟨_, _, _, by rw [value, f1, e1], by rw [value, f2, e2], by
          rw [show interpolate m (x :: A) (y :: B) alpha (s :: res) = setRow m s (fun c => (1 - alpha) * row m x c + alpha * row m y c) ::
            interpolate m A B alpha res from rfl, value, f3, e3], ?_⟩
        have hc' : form s.n m (fun i j => (s.Ic order i j).getD 0) (setRow m s fun c => (1 - alpha) * row m x c + alpha * row m y c).P
            (setRow m s fun c => (1 - alpha) * row m x c + alpha * row m y c).P =
            form s.n m (fun i j => (s.Ic order i j).getD 0) (fun i d => (1 - alpha) * x.P i d + alpha * y.P i d) (fun i d => (1 - alpha) * x.P i d + alpha * y.P i d) := by
          have : ∀ i ≤ s.n, ∀ d < m, (setRow m s fun c => (1 - alpha) * row m x c + alpha * row m y c).P i d = (1 - alpha) * x.P i d + alpha * y.P i d := by
            intro i _ d hd
            show (1 - alpha) * row m x (i * m + d) + alpha * row m y (i * m + d) = _
            rw [row_concat hd, row_concat hd]
          exact form_congr this this
        have hcv := form_convex (n := s.n) (m := m) (c := fun i j => (s.Ic order i j).getD 0)
          (fun P => form_nonneg s (hr s (List.mem_cons_self ..)) m order (by omega) P) x.P y.P h0 h1
        have hIc : ∀ i j, ((setRow m s fun c => (1 - alpha) * row m x c + alpha * row m y c).Ic order i j).getD 0 = (s.Ic order i j).getD 0 := fun i j => rfl
        simp only [hIc]
        rw [show (setRow m s fun c => (1 - alpha) * row m x c + alpha * row m y c).n = s.n from rfl, hc']
        have hl := hlam l (List.mem_cons_self ..)
        have := mul_le_mul_of_nonneg_left hcv hl
        linarith

theorem le_maxCoeff {xs : List ℝ} {x : ℝ} (h : x ∈ xs) : x ≤ maxCoeff xs := by
  induction xs with
  | nil => simp at h
  | cons y l ih =>
    cases l with
    | nil => simp only [List.mem_singleton] at h; rw [h]; exact le_rfl
    | cons z l =>
      rw [maxCoeff]
      rcases List.mem_cons.1 h with rfl | h
      · exact le_max_left _ _
      · exact (ih h).trans (le_max_right _ _)

theorem maxCoeff_mem {xs : List ℝ} (h : xs ≠ []) : maxCoeff xs ∈ xs := by
  induction xs with
  | nil => exact absurd rfl h
  | cons y l ih =>
    cases l with
    | nil => simp [maxCoeff]
    | cons z l =>
      rw [maxCoeff]
      rcases max_choice y (maxCoeff (z :: l)) with e | e
      · rw [e]; exact List.mem_cons_self ..
      · rw [e]; exact List.mem_cons_of_mem _ (ih (by simp))

/-- C92: if the squared norm of some spline is positive, the weights are finite, positive, at most a million times the smallest, and the weighted norm
of each spline is at most one, with equality unless it is negligible. -/
theorem C92_lambdas (xs : List ℝ) (h1 : ∃ x ∈ xs, 0 < x) (i : ℕ) (x : ℝ) (hx : xs[i]? = some x) :
    ∃ l, (lambdas xs)[i]? = some (some l) ∧ 0 < l ∧ l * x ≤ 1 ∧ (1e-6 * maxCoeff xs < x → l * x = 1) ∧
      ∀ (j : ℕ) (l' : ℝ), (lambdas xs)[j]? = some (some l') → l ≤ 1e6 * l' := by
  obtain ⟨y, hy, hy0⟩ := h1
  have hM : 0 < maxCoeff xs := lt_of_lt_of_le hy0 (le_maxCoeff hy)
  have hm := List.mem_of_getElem? hx
  have key : ∀ (j : ℕ) (x : ℝ), xs[j]? = some x → ∃ l, (lambdas xs)[j]? = some (some l) ∧ (maxCoeff xs)⁻¹ ≤ l ∧ l ≤ 1e6 * (maxCoeff xs)⁻¹ ∧ l * x ≤ 1 ∧ (1e-6 * maxCoeff xs < x → l * x = 1) := by
    intro j x hx
    have hm := List.mem_of_getElem? hx
    by_cases h : 1e-6 * maxCoeff xs < x
    · have hp : 0 < x := lt_trans (by positivity) h
      refine ⟨x⁻¹, ?_, inv_anti₀ hp (le_maxCoeff hm), ?_, by rw [inv_mul_cancel₀ hp.ne'], fun _ => inv_mul_cancel₀ hp.ne'⟩
      · unfold lambdas
        rw [List.getElem?_map, hx, Option.map_some, if_pos h, if_neg hp.ne']
      · rw [inv_le_iff_one_le_mul₀ hp, mul_comm, ← mul_assoc, ← div_eq_mul_inv, le_div_iff₀ hM]
        linarith
    · refine ⟨1e6 / maxCoeff xs, ?_, ?_, by rw [div_eq_mul_inv], ?_, fun h' => absurd h' h⟩
      · unfold lambdas
        rw [List.getElem?_map, hx, Option.map_some, if_neg h, if_neg hM.ne']
      · rw [← one_div]
        exact div_le_div_of_nonneg_right (by norm_num) hM.le
      · rw [div_mul_eq_mul_div, div_le_one hM]
        push Not at h
        linarith
  obtain ⟨l, e, k1, k2, k3, k4⟩ := key i x hx
  refine ⟨l, e, lt_of_lt_of_le (inv_pos.2 hM) k1, k3, k4, ?_⟩
  intro j l' hl
  cases hj : xs[j]? with
  | none => unfold lambdas at hl; rw [List.getElem?_map, hj] at hl; simp at hl
  | some z =>
    obtain ⟨l2, e2, k5, _⟩ := key j z hj
    rw [hl] at e2
    rw [Option.some.inj (Option.some.inj e2)]
    linarith

/-- C92: if all splines are constant, no weight is finite. -/
theorem C92_lambdas_counterexample (n i : ℕ) (l : Option ℝ) (h : (lambdas (List.replicate n 0))[i]? = some l) : l = none := by
  unfold lambdas at h
  rw [List.getElem?_map] at h
  cases hj : (List.replicate n (0 : ℝ))[i]? with
  | none => rw [hj] at h; simp at h
  | some z =>
    have hz := List.eq_of_mem_replicate (List.mem_of_getElem? hj)
    have hM : maxCoeff (List.replicate n (0 : ℝ)) = 0 := by
      refine List.eq_of_mem_replicate (maxCoeff_mem ?_)
      intro h0
      rw [h0] at hj
      simp at hj
    rw [hj, Option.map_some, hM, hz] at h
    simpa using h.symm

/-- The hypotheses of the theorems above are met by a cubic spline and its cost of order one. -/
example : costOk 3 1 = true ∧ costOk 3 5 = false ∧ value 1 1 [2] [cubic] = some (6 / 5) ∧ (∃ a, value 1 1 [1] [cubic] = some a ∧ 0 < a) := by
  obtain ⟨r, h1, _, h2⟩ := C78_order1_counterexample
  refine ⟨by decide, by decide, ?_, 3 / 5, ?_, by norm_num⟩
  · rw [value, h1, h2]
    simp only [value]
    norm_num
  · rw [value, h1, h2]
    simp only [value]
    norm_num

end Verif.SplineOpt
