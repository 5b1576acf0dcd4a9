import Mathlib.LinearAlgebra.Matrix.NonsingularInverse
import Mathlib.Data.Real.Basic
import Mathlib.Data.Matrix.ColumnRowPartitioned
import Mathlib.Tactic.Linarith
import Mathlib.Tactic.Ring
import Mathlib.Tactic.NormNum
set_option linter.unusedSectionVars false

/-!
# `LinearConstraint` and `QuadraticProgram` (C58, C77)

Exact arithmetic; sizes of vectors and matrices are index types, so that size mismatches (asserted in Eigen) are not modelled.
-/
namespace Verif.Linear
open Matrix

variable {M N ι κ μ : Type} [Fintype M] [Fintype N] [Fintype ι] [Fintype κ] [Fintype μ]
variable [DecidableEq M] [DecidableEq N] [DecidableEq ι] [DecidableEq κ] [DecidableEq μ]

/-- `LinearConstraint`: linear-constraint.hh:39-45, members `J` and `b`. -/
structure LC (M N : Type) where
  J : Matrix M N ℝ
  b : M → ℝ

/-- Result of `decompose`: members `xStar` and `PK`. -/
structure Dec (N κ : Type) where
  xStar : N → ℝ
  PK : Matrix N κ ℝ

/-- The rank-revealing QR decomposition of the transpose of `J` (`Eigen::ColPivHouseholderQR`): `ι` indexes the rank, `κ` the remaining
columns of `Q`, `μ` the remaining columns of `R`. -/
structure QR (M N ι κ μ : Type) where
  Q : Matrix N (ι ⊕ κ) ℝ
  R11 : Matrix ι ι ℝ
  R12 : Matrix ι μ ℝ
  perm : ι ⊕ μ ≃ M

/-- Contract of the decomposition: `Jᵀ P = Q R`, `Q` orthogonal, `R` null below the rank and invertible above it. -/
structure QRok (J : Matrix M N ℝ) (d : QR M N ι κ μ) : Prop where
  left : d.Qᵀ * d.Q = 1
  right : d.Q * d.Qᵀ = 1
  fact : Jᵀ.submatrix id d.perm = d.Q * fromBlocks d.R11 d.R12 0 0
  inv : IsUnit d.R11.det

/-- `decompose` when there are rows: linear-constraint.cc:68-90.  The triangular solve is the inverse. -/
noncomputable def decompose (lc : LC M N) (d : QR M N ι κ μ) : Dec N κ :=
  let rhs : ι → ℝ := fun i => lc.b (d.perm (Sum.inl i))
  let z : ι ⊕ κ → ℝ := Sum.elim (d.R11ᵀ⁻¹ *ᵥ rhs) 0
  { xStar := d.Q *ᵥ z
    PK := d.Q * fromRows (0 : Matrix ι κ ℝ) 1 }

/-- `decompose` without rows: linear-constraint.cc:51-55. -/
def decomposeEmpty (N : Type) [DecidableEq N] : Dec N N := ⟨0, 1⟩

/-- The check of feasibility: linear-constraint.cc:93-106; `thr` is 1e-7. -/
def check (lc : LC M N) (x : N → ℝ) (thr : ℝ) : Prop := ∀ i, |(lc.J *ᵥ x - lc.b) i| ≤ thr

/-- `reduceConstraint`: linear-constraint.hh:80-91. -/
def reduceConstraint {M' : Type} (d : Dec N κ) (lc : LC M' N) : LC M' κ := ⟨lc.J * d.PK, lc.b - lc.J *ᵥ d.xStar⟩

/-- `computeSolution`: linear-constraint.hh:97-102. -/
def computeSolution (d : Dec N κ) (v : κ → ℝ) : N → ℝ := d.xStar + d.PK *ᵥ v

/-! ## Specification: the solutions of a linear system -/

/-- `x` is a solution. -/
def Sol (lc : LC M N) (x : N → ℝ) : Prop := ∀ i, ∑ j, lc.J i j * x j = lc.b i

theorem sol_iff (lc : LC M N) (x : N → ℝ) : Sol lc x ↔ lc.J *ᵥ x = lc.b := by
  constructor
  · intro h; funext i; exact h i
  · intro h i; exact congrFun h i

/-- The decomposition parameterizes the solutions, without redundancy. -/
structure Param (lc : LC M N) (d : Dec N κ) : Prop where
  iff : ∀ x, Sol lc x ↔ ∃ v, x = computeSolution d v
  inj : ∀ v w, computeSolution d v = computeSolution d w → v = w

theorem mulVec_perm (J : Matrix M N ℝ) (d : QR M N ι κ μ) (hd : QRok J d) (x : N → ℝ) (s : ι ⊕ μ) :
    (J *ᵥ x) (d.perm s) = ((fromBlocks d.R11 d.R12 0 0 : Matrix (ι ⊕ κ) (ι ⊕ μ) ℝ)ᵀ *ᵥ (d.Qᵀ *ᵥ x)) s := by
  rw [mulVec_mulVec, ← transpose_mul, ← hd.fact]
  rfl

theorem block_mulVec (d : QR M N ι κ μ) (y : ι ⊕ κ → ℝ) :
    (fromBlocks d.R11 d.R12 0 0 : Matrix (ι ⊕ κ) (ι ⊕ μ) ℝ)ᵀ *ᵥ y = Sum.elim (d.R11ᵀ *ᵥ (y ∘ Sum.inl)) (d.R12ᵀ *ᵥ (y ∘ Sum.inl)) := by
  rw [fromBlocks_transpose, fromBlocks_mulVec]
  simp

/-- C58: when the constraint is feasible, its solutions are exactly the vectors built by `computeSolution`, each from only one parameter. -/
theorem C58_decompose (lc : LC M N) (d : QR M N ι κ μ) (hd : QRok lc.J d) (x0 : N → ℝ) (h0 : Sol lc x0) : Param lc (decompose lc d) := by
  rw [sol_iff] at h0
  have hinv : IsUnit d.R11ᵀ.det := by rw [det_transpose]; exact hd.inv
  -- coordinates along the rank of the solutions
  have key : ∀ x : N → ℝ, lc.J *ᵥ x = lc.b ↔ (d.Qᵀ *ᵥ x) ∘ Sum.inl = d.R11ᵀ⁻¹ *ᵥ (fun i => lc.b (d.perm (Sum.inl i))) := by
    have fwd : ∀ x : N → ℝ, lc.J *ᵥ x = lc.b → d.R11ᵀ *ᵥ ((d.Qᵀ *ᵥ x) ∘ Sum.inl) = fun i => lc.b (d.perm (Sum.inl i)) := by
      intro x hx
      funext i
      have := mulVec_perm lc.J d hd x (Sum.inl i)
      rw [hx, block_mulVec] at this
      exact this.symm
    intro x
    constructor
    · intro hx
      rw [← fwd x hx, mulVec_mulVec, nonsing_inv_mul _ hinv, one_mulVec]
    · intro hx
      have e0 : (d.Qᵀ *ᵥ x0) ∘ Sum.inl = (d.Qᵀ *ᵥ x) ∘ Sum.inl := by
        rw [hx, ← fwd x0 h0, mulVec_mulVec, nonsing_inv_mul _ hinv, one_mulVec]
      funext m
      obtain ⟨s, rfl⟩ := d.perm.surjective m
      rw [mulVec_perm lc.J d hd x s, block_mulVec, ← e0, ← block_mulVec, ← mulVec_perm lc.J d hd x0 s, h0]
  have hQ : ∀ v, d.Qᵀ *ᵥ computeSolution (decompose lc d) v =
      Sum.elim (d.R11ᵀ⁻¹ *ᵥ (fun i => lc.b (d.perm (Sum.inl i)))) v := by
    intro v
    unfold computeSolution decompose
    simp only
    rw [mulVec_add, mulVec_mulVec, hd.left, one_mulVec, mulVec_mulVec, ← Matrix.mul_assoc, hd.left, Matrix.one_mul, fromRows_mulVec]
    funext s
    cases s <;> simp
  constructor
  · intro x
    rw [sol_iff, key x]
    constructor
    · intro hx
      refine ⟨(d.Qᵀ *ᵥ x) ∘ Sum.inr, ?_⟩
      have e : d.Qᵀ *ᵥ x = d.Qᵀ *ᵥ computeSolution (decompose lc d) ((d.Qᵀ *ᵥ x) ∘ Sum.inr) := by
        rw [hQ, ← hx]
        funext s
        cases s <;> rfl
      have := congrArg (fun y => d.Q *ᵥ y) e
      simpa [mulVec_mulVec, hd.right] using this
    · rintro ⟨v, rfl⟩
      rw [hQ]
      rfl
  · intro v w h
    have := congrArg (fun x => d.Qᵀ *ᵥ x) h
    simp only [hQ] at this
    funext k
    exact congrFun this (Sum.inr k)

/-- C58: without rows, all vectors are solutions. -/
theorem C58_empty (lc : LC M N) [IsEmpty M] : Param lc (decomposeEmpty N) := by
  constructor
  · intro x
    refine ⟨fun _ => ⟨x, by simp [computeSolution, decomposeEmpty]⟩, fun _ i => isEmptyElim i⟩
  · intro v w h
    simpa [computeSolution, decomposeEmpty] using h

/-- C58: the check succeeds when the constraint is feasible, and when it succeeds with a null threshold the constraint is feasible. -/
theorem C58_check (lc : LC M N) (d : QR M N ι κ μ) (hd : QRok lc.J d) (thr : ℝ) (ht : 0 ≤ thr) :
    ((∃ x, Sol lc x) → check lc (decompose lc d).xStar thr) ∧ (check lc (decompose lc d).xStar 0 → Sol lc (decompose lc d).xStar) := by
  constructor
  · rintro ⟨x, hx⟩ i
    have h := ((C58_decompose lc d hd x hx).iff (computeSolution (decompose lc d) 0)).2 ⟨0, rfl⟩
    rw [sol_iff] at h
    have e : computeSolution (decompose lc d) 0 = (decompose lc d).xStar := by simp [computeSolution]
    rw [e] at h
    rw [h]; simpa using ht
  · intro h
    rw [sol_iff]
    funext i
    have := h i
    have h0 := abs_nonpos_iff.1 this
    simpa [sub_eq_zero] using h0

/-- The residual of the reduced constraint is that of the original one. -/
theorem reduce_residual {M' : Type} [Fintype M'] [DecidableEq M'] (d : Dec N κ) (lc : LC M' N) (v : κ → ℝ) :
    (reduceConstraint d lc).J *ᵥ v - (reduceConstraint d lc).b = lc.J *ᵥ computeSolution d v - lc.b := by
  unfold reduceConstraint computeSolution
  simp only
  rw [mulVec_add, mulVec_mulVec]
  abel

/-- C58: solving the reduced constraint is solving both constraints: every solution of the reduced one lifts to a solution of both, and every
solution of both is obtained; the same holds with inequalities in place of the second constraint. -/
theorem C58_reduce {M' : Type} [Fintype M'] [DecidableEq M'] (lc : LC M N) (d : Dec N κ) (hd : Param lc d) (lc' : LC M' N) (x : N → ℝ) :
    ((Sol lc x ∧ Sol lc' x) ↔ ∃ v, Sol (reduceConstraint d lc') v ∧ x = computeSolution d v) ∧
    ((Sol lc x ∧ ∀ i, lc'.b i ≤ (lc'.J *ᵥ x) i) ↔
      ∃ v, (∀ i, (reduceConstraint d lc').b i ≤ ((reduceConstraint d lc').J *ᵥ v) i) ∧ x = computeSolution d v) := by
  have res := reduce_residual d lc'
  constructor
  · constructor
    · rintro ⟨h1, h2⟩
      obtain ⟨v, rfl⟩ := (hd.iff x).1 h1
      refine ⟨v, ?_, rfl⟩
      have := res v
      rw [sol_iff] at h2 ⊢
      rw [h2, sub_self] at this
      exact sub_eq_zero.1 this
    · rintro ⟨v, hv, rfl⟩
      refine ⟨(hd.iff _).2 ⟨v, rfl⟩, ?_⟩
      have := res v
      rw [sol_iff] at hv ⊢
      rw [hv, sub_self] at this
      exact sub_eq_zero.1 this.symm
  · constructor
    · rintro ⟨h1, h2⟩
      obtain ⟨v, rfl⟩ := (hd.iff x).1 h1
      refine ⟨v, fun i => ?_, rfl⟩
      have := congrFun (res v) i
      simp only [Pi.sub_apply] at this
      linarith [h2 i]
    · rintro ⟨v, hv, rfl⟩
      refine ⟨(hd.iff _).2 ⟨v, rfl⟩, fun i => ?_⟩
      have := congrFun (res v) i
      simp only [Pi.sub_apply] at this
      linarith [hv i]

/-! ## Quadratic programs -/

/-- `QuadraticProgram`: members `H`, `b`, `bIsZero`. -/
structure QP (N : Type) where
  H : Matrix N N ℝ
  b : N → ℝ
  bIsZero : Bool

/-- `reduced`: quadratic-program.hh:143-151. -/
def reduced (q : QP N) (d : Dec N κ) : QP κ :=
  let HPK := q.H * d.PK
  { H := d.PKᵀ * HPK
    b := if q.bIsZero then HPKᵀ *ᵥ d.xStar else HPKᵀ *ᵥ d.xStar + d.PKᵀ *ᵥ q.b
    bIsZero := false }

/-- `solve ()`: quadratic-program.hh:155; `dec` is a decomposition of a matrix that is asserted invertible (quadratic-program.cc:58-62). -/
noncomputable def solve (q : QP N) : N → ℝ := -(q.H⁻¹ *ᵥ q.b)

/-- The cost: quadratic-program.hh:41-42. -/
noncomputable def cost (q : QP N) (x : N → ℝ) : ℝ := 1 / 2 * (x ⬝ᵥ (q.H *ᵥ x)) + q.b ⬝ᵥ x

/-- What callers ensure: the matrix is symmetric and the flag tells the truth. -/
structure QPok (q : QP N) : Prop where
  symm : q.Hᵀ = q.H
  flag : q.bIsZero = true → q.b = 0

theorem dot_symm (H : Matrix N N ℝ) (hs : Hᵀ = H) (x y : N → ℝ) : x ⬝ᵥ (H *ᵥ y) = y ⬝ᵥ (H *ᵥ x) := by
  rw [dotProduct_mulVec, ← mulVec_transpose, hs, dotProduct_comm]

/-- C77: the cost of the reduced program is that of the lifted vector, up to a constant. -/
theorem C77_reduced (q : QP N) (hq : QPok q) (d : Dec N κ) (v : κ → ℝ) :
    cost q (computeSolution d v) = cost (reduced q d) v + cost q d.xStar ∧ QPok (reduced q d) := by
  have hb : (reduced q d).b = (q.H * d.PK)ᵀ *ᵥ d.xStar + d.PKᵀ *ᵥ q.b := by
    unfold reduced
    simp only
    split
    · rename_i h; rw [hq.flag h, mulVec_zero, add_zero]
    · rfl
  constructor
  · have e1 : ((q.H * d.PK)ᵀ *ᵥ d.xStar) ⬝ᵥ v = d.xStar ⬝ᵥ (q.H *ᵥ (d.PK *ᵥ v)) := by
      rw [mulVec_transpose, ← dotProduct_mulVec, mulVec_mulVec]
    have e2 : (d.PKᵀ *ᵥ q.b) ⬝ᵥ v = q.b ⬝ᵥ (d.PK *ᵥ v) := by
      rw [mulVec_transpose, ← dotProduct_mulVec]
    have e3 : v ⬝ᵥ ((reduced q d).H *ᵥ v) = (d.PK *ᵥ v) ⬝ᵥ (q.H *ᵥ (d.PK *ᵥ v)) := by
      show v ⬝ᵥ ((d.PKᵀ * (q.H * d.PK)) *ᵥ v) = _
      rw [← mulVec_mulVec, ← mulVec_mulVec, dotProduct_mulVec, vecMul_transpose]
    unfold cost
    rw [hb, e3, add_dotProduct, e1, e2]
    unfold computeSolution
    rw [mulVec_add, dotProduct_add, add_dotProduct, add_dotProduct, dotProduct_add, dot_symm q.H hq.symm (d.PK *ᵥ v) d.xStar]
    ring
  · refine ⟨?_, fun h => ?_⟩
    · show (d.PKᵀ * (q.H * d.PK))ᵀ = d.PKᵀ * (q.H * d.PK)
      rw [transpose_mul, transpose_mul, transpose_transpose, hq.symm, Matrix.mul_assoc]
    · cases h

/-- C77: with a positive definite matrix `solve` gives the only minimum. -/
theorem C77_solve (q : QP N) (hq : QPok q) (hu : IsUnit q.H.det) (hpos : ∀ x : N → ℝ, x ≠ 0 → 0 < x ⬝ᵥ (q.H *ᵥ x)) (x : N → ℝ)
    (hx : x ≠ solve q) : cost q (solve q) < cost q x := by
  have hs : q.H *ᵥ solve q = -q.b := by
    unfold solve
    rw [mulVec_neg, mulVec_mulVec, mul_nonsing_inv _ hu, one_mulVec]
  have hne : x - solve q ≠ 0 := sub_ne_zero.2 hx
  have hp := hpos _ hne
  have e : x = solve q + (x - solve q) := by abel
  have : cost q x = cost q (solve q) + 1 / 2 * ((x - solve q) ⬝ᵥ (q.H *ᵥ (x - solve q))) := by
    generalize x - solve q = w at e
    rw [e]
    unfold cost
    rw [mulVec_add, add_dotProduct, dotProduct_add, dotProduct_add, dotProduct_add, dot_symm q.H hq.symm (solve q) w, hs, dotProduct_neg, dotProduct_neg,
      dotProduct_comm w q.b]
    ring
  linarith

/-- C77: reducing, solving and lifting gives the minimum of the cost among the solutions of the constraint. -/
theorem C77_optimum (q : QP N) (hq : QPok q) (lc : LC M N) (d : Dec N κ) (hd : Param lc d) (hu : IsUnit (reduced q d).H.det)
    (hpos : ∀ v : κ → ℝ, v ≠ 0 → 0 < (d.PK *ᵥ v) ⬝ᵥ (q.H *ᵥ (d.PK *ᵥ v))) :
    Sol lc (computeSolution d (solve (reduced q d))) ∧
    ∀ x, Sol lc x → x ≠ computeSolution d (solve (reduced q d)) → cost q (computeSolution d (solve (reduced q d))) < cost q x := by
  refine ⟨(hd.iff _).2 ⟨_, rfl⟩, fun x hx hne => ?_⟩
  obtain ⟨v, rfl⟩ := (hd.iff x).1 hx
  rw [(C77_reduced q hq d v).1, (C77_reduced q hq d _).1]
  have hr := (C77_reduced q hq d v).2
  have := C77_solve (reduced q d) hr hu (fun w hw => by
    show 0 < w ⬝ᵥ ((d.PKᵀ * (q.H * d.PK)) *ᵥ w)
    rw [← mulVec_mulVec, ← mulVec_mulVec, dotProduct_mulVec, vecMul_transpose]
    exact hpos w hw) v (fun h => hne (by rw [h]))
  linarith

/-- C77: the reduction needs a symmetric matrix; here the cost is `x₀ x₁ / 2` on the line `x₀ = 1`, and the reduced cost misses the slope. -/
theorem C77_symmetric_counterexample :
    let q : QP (Fin 2) := ⟨!![0, 1; 0, 0], 0, true⟩
    let d : Dec (Fin 2) (Fin 1) := ⟨![1, 0], !![0; 1]⟩
    cost q (computeSolution d ![1]) - cost q d.xStar = 1 / 2 ∧ cost (reduced q d) ![1] = 1 := by
  constructor
  · norm_num [cost, computeSolution, dotProduct, mulVec, Fin.sum_univ_succ]
  · norm_num [cost, reduced, dotProduct, mulVec, Fin.sum_univ_succ, Matrix.mul_apply]

/-- A constraint and its decomposition: `x₀ + 0 x₁ = 3`. -/
def lcEx : LC Unit (Unit ⊕ Unit) := ⟨fun _ s => match s with | .inl _ => 1 | .inr _ => 0, fun _ => 3⟩
noncomputable def qrEx : QR Unit (Unit ⊕ Unit) Unit Unit Empty := ⟨1, 1, 0, Equiv.sumEmpty Unit Empty⟩

example : QRok lcEx.J qrEx := by
  refine ⟨by simp [qrEx], by simp [qrEx], ?_, by simp [qrEx]⟩
  ext i j
  rcases i with i | i <;> rcases j with j | j
  · simp [qrEx, lcEx, Matrix.transpose]
  · exact j.elim
  · simp [qrEx, lcEx, Matrix.transpose]
  · exact j.elim

example : Sol lcEx (Sum.elim (fun _ => 3) (fun _ => 7)) := by intro i; simp [lcEx]

end Verif.Linear
