import Verif.Distance.Weighed
import Mathlib.Algebra.BigOperators.Fin
import Mathlib.Algebra.Order.BigOperators.Ring.Finset
set_option linter.unusedSectionVars false

/-!
# Default weights of `WeighedDistance` and velocities of the bodies (C122)

The radius of a body is the largest distance of its points to the origin of its joint.  Jacobians and positions are those of the robot at the configuration at which the distance is created.
-/
namespace Verif.Dist.W
open Finset

/-- Vectors of dimension 3 and their norm. -/
abbrev V3 := Fin 3 → ℝ
noncomputable def nrm {n : ℕ} (v : Fin n → ℝ) : ℝ := √(∑ i, v i ^ 2)
def cross (a b : V3) : V3 := ![a 1 * b 2 - a 2 * b 1, a 2 * b 0 - a 0 * b 2, a 0 * b 1 - a 1 * b 0]
/-- Matrices with 3 rows. -/
abbrev M3 (n : ℕ) := Fin 3 → Fin n → ℝ
def app {n : ℕ} (M : M3 n) (x : Fin n → ℝ) : V3 := fun i => ∑ j, M i j * x j

/-- Contract of `largestSingularValue` (Eigen, weighed-distance.cc:53-60): the least bound of the norm of the image of unit vectors. -/
structure IsSigma {n : ℕ} (M : M3 n) (s : ℝ) : Prop where
  nonneg : 0 ≤ s
  bound : ∀ x, nrm (app M x) ≤ s * nrm x
  least : ∀ s', 0 ≤ s' → (∀ x, nrm (app M x) ≤ s' * nrm x) → s ≤ s'

/-- What is known of a body `j` of the subtree of joint `i`: radius, position of the origin of `j` with respect to that of `i`, rotation jacobians with respect to joint `i` in the world frame (weighed-distance.cc:62-81). -/
structure Body (n : ℕ) where
  radius : ℝ
  pos : V3
  lin : M3 n
  ang : M3 n

/-- `computeWeight`: weighed-distance.cc:83-92; `sg` computes largest singular values. -/
noncomputable def computeWeight {n : ℕ} (sg : M3 n → ℝ) (b : Body n) (r : ℝ) : ℝ := max (sg b.lin) (r * sg b.ang)

/-- `radius`: weighed-distance.cc:116-118 (the distance is squared). -/
noncomputable def reach {n : ℕ} (b : Body n) : ℝ := b.radius + ∑ i, b.pos i ^ 2

/-- The loop over the bodies: weighed-distance.cc:111-121. -/
noncomputable def weightLoop {n : ℕ} (sg : M3 n → ℝ) : List (Body n) → ℝ → ℝ
  | [], length => length
  | b :: bs, length =>
    let sigma := computeWeight sg b (reach b)
    weightLoop sg bs (if length < sigma then sigma else length)

/-- `ComputeWeightStep::algo`: weighed-distance.cc:94-122, with `length = 0` as in `computeWeights` (238). -/
noncomputable def algo {n : ℕ} (sg : M3 n → ℝ) (bs : List (Body n)) : ℝ := if n = 0 then 1 else weightLoop sg bs 0

/-- Specification: velocity of the point at `u` from the origin of the joint of the body, when the rotation velocity of joint `i` is `x`. -/
def velocity {n : ℕ} (b : Body n) (x : Fin n → ℝ) (u : V3) : V3 := fun i => app b.lin x i + cross (app b.ang x) u i

/-! ## Norms -/
theorem nrm_nonneg {n : ℕ} (v : Fin n → ℝ) : 0 ≤ nrm v := Real.sqrt_nonneg _
theorem nrm_sq {n : ℕ} (v : Fin n → ℝ) : nrm v ^ 2 = ∑ i, v i ^ 2 := Real.sq_sqrt (sum_nonneg fun i _ => sq_nonneg _)

theorem nrm_add {n : ℕ} (a b : Fin n → ℝ) : nrm (fun i => a i + b i) ≤ nrm a + nrm b := by
  apply Real.sqrt_le_iff.2
  refine ⟨add_nonneg (nrm_nonneg a) (nrm_nonneg b), ?_⟩
  have hcs : (∑ i, a i * b i) ≤ nrm a * nrm b := by
    apply le_of_sq_le_sq _ (mul_nonneg (nrm_nonneg a) (nrm_nonneg b))
    rw [mul_pow, nrm_sq, nrm_sq]
    exact sum_mul_sq_le_sq_mul_sq univ a b
  have : ∑ i, (a i + b i) ^ 2 = ∑ i, a i ^ 2 + 2 * ∑ i, a i * b i + ∑ i, b i ^ 2 := by
    rw [mul_sum, ← sum_add_distrib, ← sum_add_distrib]
    exact sum_congr rfl fun i _ => by ring
  rw [this, add_sq, nrm_sq, nrm_sq]
  nlinarith

theorem nrm_cross (a b : V3) : nrm (cross a b) ≤ nrm a * nrm b := by
  apply Real.sqrt_le_iff.2
  refine ⟨mul_nonneg (nrm_nonneg a) (nrm_nonneg b), ?_⟩
  rw [mul_pow, nrm_sq, nrm_sq]
  simp only [Fin.sum_univ_three, cross, Matrix.cons_val_zero, Matrix.cons_val_one, Matrix.cons_val]
  nlinarith [sq_nonneg (a 0 * b 0 + a 1 * b 1 + a 2 * b 2)]

/-! ## Weights -/
theorem weightLoop_spec {n : ℕ} (sg : M3 n → ℝ) (bs : List (Body n)) (l : ℝ) :
    l ≤ weightLoop sg bs l ∧ (∀ b ∈ bs, computeWeight sg b (reach b) ≤ weightLoop sg bs l) ∧ (weightLoop sg bs l = l ∨ ∃ b ∈ bs, weightLoop sg bs l = computeWeight sg b (reach b)) := by
  induction bs generalizing l with
  | nil => exact ⟨le_refl _, by simp, Or.inl rfl⟩
  | cons b bs ih =>
    simp only [weightLoop]
    obtain ⟨h1, h2, h3⟩ := ih (if l < computeWeight sg b (reach b) then computeWeight sg b (reach b) else l)
    by_cases h : l < computeWeight sg b (reach b)
    · simp only [if_pos h] at h1 h2 h3 ⊢
      refine ⟨by linarith, ?_, ?_⟩
      · intro c hc
        rcases List.mem_cons.1 hc with rfl | hc
        · exact h1
        · exact h2 c hc
      · rcases h3 with h3 | ⟨c, hc, h3⟩
        · exact Or.inr ⟨b, by simp, h3⟩
        · exact Or.inr ⟨c, List.mem_cons_of_mem _ hc, h3⟩
    · simp only [if_neg h] at h1 h2 h3 ⊢
      refine ⟨h1, ?_, ?_⟩
      · intro c hc
        rcases List.mem_cons.1 hc with rfl | hc
        · exact le_trans (not_lt.1 h) h1
        · exact h2 c hc
      · rcases h3 with h3 | ⟨c, hc, h3⟩
        · exact Or.inl h3
        · exact Or.inr ⟨c, List.mem_cons_of_mem _ hc, h3⟩

/-- C122: the length of a joint that rotates is the largest of the values of the bodies it moves, the one of a joint that only translates is 1. -/
theorem C122_length {n : ℕ} (sg : M3 n → ℝ) (hsg : ∀ M, 0 ≤ sg M) (bs : List (Body n)) :
    (n = 0 → algo sg bs = 1) ∧ (n ≠ 0 → (∀ b ∈ bs, sg b.lin ≤ algo sg bs ∧ (b.radius + nrm b.pos ^ 2) * sg b.ang ≤ algo sg bs) ∧
      (bs ≠ [] → ∃ b ∈ bs, algo sg bs = sg b.lin ∨ algo sg bs = (b.radius + nrm b.pos ^ 2) * sg b.ang)) := by
  refine ⟨fun h => by simp [algo, h], fun h => ?_⟩
  have e : algo sg bs = weightLoop sg bs 0 := by simp [algo, h]
  obtain ⟨h1, h2, h3⟩ := weightLoop_spec sg bs 0
  rw [e]
  refine ⟨fun b hb => ?_, fun hne => ?_⟩
  · have := h2 b hb
    rw [nrm_sq]
    exact ⟨le_trans (le_max_left _ _) this, le_trans (le_max_right _ _) this⟩
  · have key : ∃ b ∈ bs, weightLoop sg bs 0 = computeWeight sg b (reach b) := by
      rcases h3 with h3 | h3
      · match bs, hne with
        | b :: bs, _ =>
          refine ⟨b, by simp, le_antisymm ?_ (h2 b (by simp))⟩
          rw [h3]
          exact le_trans (hsg b.lin) (le_max_left _ _)
      · exact h3
    obtain ⟨b, hb, hk⟩ := key
    refine ⟨b, hb, ?_⟩
    rw [hk, nrm_sq]
    unfold computeWeight reach
    rcases max_choice (sg b.lin) ((b.radius + ∑ i, b.pos i ^ 2) * sg b.ang) with h | h
    · exact Or.inl h
    · exact Or.inr h

/-- C122: when a joint rotates with velocity `x`, no point of the bodies it moves is faster than twice the length of the joint times the norm of `x`. -/
theorem C122_velocity_partial {n : ℕ} (hn : n ≠ 0) (sg : M3 n → ℝ) (hsg : ∀ M, IsSigma M (sg M)) (bs : List (Body n)) (b : Body n) (hb : b ∈ bs) (u : V3) (hu : nrm u ≤ b.radius) (x : Fin n → ℝ) :
    nrm (velocity b x u) ≤ 2 * algo sg bs * nrm x := by
  obtain ⟨h1, h2⟩ := ((C122_length sg (fun M => (hsg M).nonneg) bs).2 hn).1 b hb
  have hx := nrm_nonneg x
  have e1 : nrm (app b.lin x) ≤ algo sg bs * nrm x := le_trans ((hsg b.lin).bound x) (mul_le_mul_of_nonneg_right h1 hx)
  have hs := (hsg b.ang).nonneg
  have e2 : nrm (cross (app b.ang x) u) ≤ algo sg bs * nrm x := by
    refine le_trans (nrm_cross _ _) ?_
    have a1 := (hsg b.ang).bound x
    have a2 : b.radius * sg b.ang ≤ algo sg bs := le_trans (by nlinarith [sq_nonneg (nrm b.pos)]) h2
    calc nrm (app b.ang x) * nrm u ≤ (sg b.ang * nrm x) * b.radius := mul_le_mul a1 hu (nrm_nonneg u) (mul_nonneg hs hx)
      _ = (b.radius * sg b.ang) * nrm x := by ring
      _ ≤ algo sg bs * nrm x := mul_le_mul_of_nonneg_right a2 hx
  refine le_trans (nrm_add _ _) ?_
  linarith

/-- C122: the factor 2 is not necessary for bodies whose joint is at the position of the rotating joint or at least at distance 1 (in the unit of the model) of it. -/
theorem C122_far_partial {n : ℕ} (hn : n ≠ 0) (sg : M3 n → ℝ) (hsg : ∀ M, IsSigma M (sg M)) (bs : List (Body n)) (b : Body n) (hb : b ∈ bs)
    (hk : ∀ x, app b.lin x = cross (app b.ang x) b.pos) (hd : nrm b.pos = 0 ∨ 1 ≤ nrm b.pos) (u : V3) (hu : nrm u ≤ b.radius) (x : Fin n → ℝ) :
    nrm (velocity b x u) ≤ algo sg bs * nrm x := by
  obtain ⟨_, h2⟩ := ((C122_length sg (fun M => (hsg M).nonneg) bs).2 hn).1 b hb
  have hx := nrm_nonneg x
  have hs := (hsg b.ang).nonneg
  have hp := nrm_nonneg b.pos
  have hd2 : nrm b.pos ≤ nrm b.pos ^ 2 := by
    rcases hd with h | h
    · rw [h]; norm_num
    · nlinarith
  have e1 : nrm (app b.lin x) ≤ (sg b.ang * nrm x) * nrm b.pos := by
    rw [hk]
    exact le_trans (nrm_cross _ _) (mul_le_mul_of_nonneg_right ((hsg b.ang).bound x) hp)
  have e2 : nrm (cross (app b.ang x) u) ≤ (sg b.ang * nrm x) * b.radius :=
    le_trans (nrm_cross _ _) (mul_le_mul ((hsg b.ang).bound x) hu (nrm_nonneg u) (mul_nonneg hs hx))
  refine le_trans (nrm_add _ _) ?_
  calc nrm (app b.lin x) + nrm (cross (app b.ang x) u) ≤ (sg b.ang * nrm x) * (b.radius + nrm b.pos ^ 2) := by
        have := mul_le_mul_of_nonneg_left hd2 (mul_nonneg hs hx)
        linarith
    _ = ((b.radius + nrm b.pos ^ 2) * sg b.ang) * nrm x := by ring
    _ ≤ algo sg bs * nrm x := mul_le_mul_of_nonneg_right h2 hx

/-- The version of `largestSingularValue` for one column (weighed-distance.cc:131-135) meets the contract. -/
theorem C122_column (M : M3 1) : IsSigma M (nrm fun i => M i 0) := by
  have e : ∀ x, nrm (app M x) = nrm (fun i => M i 0) * nrm x := by
    intro x
    unfold nrm
    rw [← Real.sqrt_mul (sum_nonneg fun i _ => sq_nonneg _)]
    congr 1
    rw [sum_mul]
    refine sum_congr rfl fun i _ => ?_
    simp [app, mul_pow]
  refine ⟨nrm_nonneg _, fun x => le_of_eq (e x), fun s' _ h => ?_⟩
  have h1 := h fun _ => 1
  have : nrm (fun _ : Fin 1 => (1 : ℝ)) = 1 := by simp [nrm]
  rw [e, this] at h1
  linarith

/-! ## The factor 2, and the unit of lengths -/

/-- A body at distance `d` of a revolute joint of axis `z`, along `x`. -/
def arm (d r : ℝ) : Body 1 := ⟨r, ![d, 0, 0], fun i _ => if i = 1 then d else 0, fun i _ => if i = 2 then 1 else 0⟩

theorem arm_algo (d r : ℝ) (hd : 0 ≤ d) (hr : 0 ≤ r) : algo (fun M => nrm fun i => M i 0) [arm d r] = max d (r + d ^ 2) := by
  have e1 : nrm (fun i => (arm d r).lin i 0) = d := by
    simp [nrm, arm, Fin.sum_univ_three, Real.sqrt_sq hd]
  have e2 : nrm (fun i => (arm d r).ang i 0) = 1 := by
    simp [nrm, arm, Fin.sum_univ_three]
  have e3 : reach (arm d r) = r + d ^ 2 := by simp [reach, arm, Fin.sum_univ_three]
  have e4 : computeWeight (fun M => nrm fun i => M i 0) (arm d r) (reach (arm d r)) = max d (r + d ^ 2) := by
    show max (nrm fun i => (arm d r).lin i 0) (reach (arm d r) * nrm fun i => (arm d r).ang i 0) = _
    rw [e1, e2, e3, mul_one]
  have e5 : 0 ≤ max d (r + d ^ 2) := le_trans hd (le_max_left _ _)
  simp only [algo, weightLoop, e4]
  rw [if_neg one_ne_zero]
  split
  · rfl
  · linarith

theorem arm_velocity (d r : ℝ) (hd : 0 ≤ d) (hr : 0 ≤ r) : nrm (velocity (arm d r) (fun _ => 1) ![r, 0, 0]) = d + r := by
  have : velocity (arm d r) (fun _ => 1) ![r, 0, 0] = ![0, d + r, 0] := by
    funext i
    fin_cases i <;> simp [velocity, app, arm, cross]
  rw [this]
  simp [nrm, Fin.sum_univ_three, Real.sqrt_sq (add_nonneg hd hr)]

/-- C122: the length of the joint may be lower than the velocity of a point it moves at velocity 1: here 3/4 for a point at distance 1. -/
theorem C122_velocity_counterexample : algo (fun M => nrm fun i => M i 0) [arm (1 / 2) (1 / 2)] = 3 / 4 ∧ nrm ![(1 / 2 : ℝ), 0, 0] ≤ (arm (1 / 2) (1 / 2)).radius ∧
    nrm (velocity (arm (1 / 2) (1 / 2)) (fun _ => 1) ![1 / 2, 0, 0]) = 1 := by
  refine ⟨?_, ?_, ?_⟩
  · rw [arm_algo _ _ (by norm_num) (by norm_num)]; norm_num
  · simp only [nrm, Fin.sum_univ_three, arm]
    apply Real.sqrt_le_iff.2
    have : (![1 / 2, 0, 0] : V3) 2 = 0 := rfl
    rw [this]
    norm_num
  · rw [arm_velocity _ _ (by norm_num) (by norm_num)]; norm_num

/-- C122: lengths depend on the unit: with all dimensions multiplied by 10, the length of the joint is multiplied by more than 10 (0.75 and 30). -/
theorem C122_unit_counterexample : algo (fun M => nrm fun i => M i 0) [arm (10 * (1 / 2)) (10 * (1 / 2))] = 40 * algo (fun M => nrm fun i => M i 0) [arm (1 / 2) (1 / 2)] := by
  rw [arm_algo _ _ (by norm_num) (by norm_num), arm_algo _ _ (by norm_num) (by norm_num)]; norm_num

/-- The hypotheses hold for an arm of length 2. -/
example : (∀ x, app (arm 2 1).lin x = cross (app (arm 2 1).ang x) (arm 2 1).pos) ∧ 1 ≤ nrm (arm 2 1).pos ∧ ∀ M : M3 1, IsSigma M (nrm fun i => M i 0) := by
  refine ⟨fun x => ?_, ?_, C122_column⟩
  · funext i
    fin_cases i <;> simp [app, arm, cross, mul_comm]
  · have : nrm (arm 2 1).pos = 2 := by
      simp [nrm, arm, Fin.sum_univ_three]
    rw [this]; norm_num

end Verif.Dist.W
