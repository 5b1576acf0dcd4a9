import Verif.SplineOpt.Groups
import Verif.Path.SplineBound
import Mathlib.Analysis.SpecialFunctions.Trigonometric.Bounds
import Mathlib.Analysis.Quaternion
set_option linter.unusedSectionVars false

/-!
# Points of bodies carried by ball joints (C137)

Continuous validation multiplies the norm of the velocity bound of a joint by the largest distance from the joint to points of the body (solid-solid-collision.cc:76-99).  For a ball joint
the velocity bound of a spline is about the derivative of the tangent vector that is integrated from the base (spline.cc:424-434), which is not the angular velocity.
-/
namespace Verif.Ball
open scoped Quaternion
open Verif.Spline Verif.SplineOpt

theorem ang_nonneg (v : ℕ → ℝ) : 0 ≤ ang v := Real.sqrt_nonneg _

theorem ang_sq (v : ℕ → ℝ) : ang v ^ 2 = v 0 ^ 2 + v 1 ^ 2 + v 2 ^ 2 := Real.sq_sqrt (by positivity)

/-- `sin (θ / 2) / θ`. -/
noncomputable def sc (v : ℕ → ℝ) : ℝ := if ang v = 0 then 1 / 2 else Real.sin (ang v / 2) / ang v

theorem sc_mul (v : ℕ → ℝ) : sc v * ang v = Real.sin (ang v / 2) := by
  unfold sc
  split
  · next h => rw [h]; simp
  · next h => field_simp

theorem abs_sc (v : ℕ → ℝ) : |sc v| ≤ 1 / 2 := by
  unfold sc
  split
  · rw [abs_of_pos (by norm_num)]
  · next h =>
    have hp : 0 < ang v := lt_of_le_of_ne (ang_nonneg v) (Ne.symm h)
    rw [abs_div, abs_of_pos hp, div_le_iff₀ hp]
    have := Real.abs_sin_le_abs (x := ang v / 2)
    rw [abs_of_pos (half_pos hp)] at this
    linarith

theorem expQ_re (v : ℕ → ℝ) : (expQ v).re = Real.cos (ang v / 2) := rfl
theorem expQ_imI (v : ℕ → ℝ) : (expQ v).imI = sc v * v 0 := rfl
theorem expQ_imJ (v : ℕ → ℝ) : (expQ v).imJ = sc v * v 1 := rfl
theorem expQ_imK (v : ℕ → ℝ) : (expQ v).imK = sc v * v 2 := rfl

theorem expQ_norm (v : ℕ → ℝ) : ‖expQ v‖ = 1 := by
  have h : ‖expQ v‖ * ‖expQ v‖ = 1 := by
    rw [← Quaternion.normSq_eq_norm_mul_self, Quaternion.normSq_def', expQ_re, expQ_imI, expQ_imJ, expQ_imK]
    have h1 := sc_mul v
    have h2 := ang_sq v
    have h3 := Real.sin_sq_add_cos_sq (ang v / 2)
    rw [← h1, mul_pow, h2] at h3
    linear_combination h3
  nlinarith [norm_nonneg (expQ v)]

/-- Norm of the difference of two tangent vectors. -/
noncomputable def dist3 (v w : ℕ → ℝ) : ℝ := ang fun d => v d - w d

/-- The exponential does not increase distances: two unit quaternions are at most as far as half the tangent vectors. -/
theorem chord (v w : ℕ → ℝ) : ‖expQ v - expQ w‖ ≤ dist3 v w / 2 := by
  have hc : v 0 * w 0 + v 1 * w 1 + v 2 * w 2 ≤ ang v * ang w := by
    refine (le_abs_self _).trans (abs_le_of_sq_le_sq ?_ (mul_nonneg (ang_nonneg v) (ang_nonneg w)))
    rw [mul_pow, ang_sq, ang_sq]
    nlinarith [sq_nonneg (v 0 * w 1 - v 1 * w 0), sq_nonneg (v 0 * w 2 - v 2 * w 0), sq_nonneg (v 1 * w 2 - v 2 * w 1)]
  have hd : dist3 v w ^ 2 = ang v ^ 2 + ang w ^ 2 - 2 * (v 0 * w 0 + v 1 * w 1 + v 2 * w 2) := by
    unfold dist3
    rw [ang_sq, ang_sq, ang_sq]; ring
  have hn : ‖expQ v - expQ w‖ * ‖expQ v - expQ w‖
      = 2 - 2 * (Real.cos (ang v / 2) * Real.cos (ang w / 2)) - 2 * (sc v * sc w) * (v 0 * w 0 + v 1 * w 1 + v 2 * w 2) := by
    rw [← Quaternion.normSq_eq_norm_mul_self, Quaternion.normSq_def', Quaternion.re_sub, Quaternion.imI_sub, Quaternion.imJ_sub, Quaternion.imK_sub]
    simp only [expQ_re, expQ_imI, expQ_imJ, expQ_imK]
    have h1 := sc_mul v
    have h2 := ang_sq v
    have h3 := Real.sin_sq_add_cos_sq (ang v / 2)
    have h1' := sc_mul w
    have h2' := ang_sq w
    have h3' := Real.sin_sq_add_cos_sq (ang w / 2)
    rw [← h1, mul_pow, h2] at h3
    rw [← h1', mul_pow, h2'] at h3'
    linear_combination h3 + h3'
  have hs : sc v * sc w ≤ 1 / 4 := by
    have := mul_le_mul (abs_sc v) (abs_sc w) (abs_nonneg _) (by norm_num)
    rw [← abs_mul] at this
    exact (le_abs_self _).trans (this.trans (by norm_num))
  have hcos := Real.one_sub_sq_div_two_le_cos (x := ang v / 2 - ang w / 2)
  rw [Real.cos_sub, ← sc_mul v, ← sc_mul w] at hcos
  have key : ‖expQ v - expQ w‖ * ‖expQ v - expQ w‖ ≤ (dist3 v w / 2) ^ 2 := by
    rw [hn, div_pow, hd]
    nlinarith [mul_nonneg (sub_nonneg.2 hs) (sub_nonneg.2 hc)]
  nlinarith [norm_nonneg (expQ v - expQ w), ang_nonneg fun d => v d - w d, show dist3 v w = ang fun d => v d - w d from rfl]

/-- Position of a point of the body in the frame of the parent joint, `x` being its coordinates in the frame of the ball joint (as a quaternion without real part). -/
noncomputable def rot (q x : ℍ[ℝ]) : ℍ[ℝ] := q * x * star q

theorem rot_sub (p q x : ℍ[ℝ]) (hp : ‖p‖ = 1) (hq : ‖q‖ = 1) : ‖rot p x - rot q x‖ ≤ 2 * ‖p - q‖ * ‖x‖ := by
  have e : rot p x - rot q x = (p - q) * x * star p + q * x * star (p - q) := by
    unfold rot
    rw [star_sub]
    noncomm_ring
  rw [e]
  refine (norm_add_le _ _).trans ?_
  rw [norm_mul, norm_mul, norm_mul, norm_mul, norm_star, norm_star, hp, hq]
  nlinarith

theorem integrate_sub (b : ℍ[ℝ]) (hb : ‖b‖ = 1) (v w x : _) : ‖rot (integrateSO3 b v) x - rot (integrateSO3 b w) x‖ ≤ dist3 v w * ‖x‖ := by
  have h1 : ∀ v, ‖integrateSO3 b v‖ = 1 := fun v => by rw [integrateSO3, norm_mul, hb, expQ_norm, one_mul]
  refine (rot_sub _ _ x (h1 v) (h1 w)).trans ?_
  have h2 : ‖integrateSO3 b v - integrateSO3 b w‖ = ‖expQ v - expQ w‖ := by rw [integrateSO3, integrateSO3, ← mul_sub, norm_mul, hb, one_mul]
  rw [h2]
  have := chord v w
  nlinarith [norm_nonneg x]

theorem ang_le {x y : ℕ → ℝ} {c : ℝ} (hc : 0 ≤ c) (h : ∀ d < 3, |x d| ≤ c * y d) : ang x ≤ c * ang y := by
  have k : ∀ d < 3, x d ^ 2 ≤ c ^ 2 * y d ^ 2 := fun d hd => by
    rw [← sq_abs (x d), ← mul_pow]
    exact pow_le_pow_left₀ (abs_nonneg _) (h d hd) 2
  have : ang x ^ 2 ≤ (c * ang y) ^ 2 := by
    rw [mul_pow, ang_sq, ang_sq]
    have := k 0 (by norm_num); have := k 1 (by norm_num); have := k 2 (by norm_num)
    nlinarith
  exact (sq_le_sq₀ (ang_nonneg _) (mul_nonneg hc (ang_nonneg _))).1 this

variable {Q : Type}

/-- The ball joint whose velocity begins at rank `r`: the part of `impl_compute` (spline.cc:353-372) for this joint. -/
noncomputable def ballAt (S : Spl Q) (b : ℍ[ℝ]) (r : ℕ) (s : ℝ) : ℍ[ℝ] := integrateSO3 b fun d => S.velocity (S.param s) (r + d)

theorem velocity_sub (S : Spl Q) (h : S.s0 < S.s1) {t0 t1 : ℝ} (h0 : S.s0 ≤ t0) (h1 : t1 ≤ S.s1) (d : ℕ) (B : ℝ)
    (hB : ∀ s, t0 ≤ s → s ≤ t1 → ∃ v, S.derivative s 1 d = some v ∧ |v| ≤ B) {s s' : ℝ} (hs : t0 ≤ s) (hs' : s ≤ s') (hs1 : s' ≤ t1) :
    |S.velocity (S.param s) d - S.velocity (S.param s') d| ≤ (s' - s) * B := by
  have e : ∀ t, t0 ≤ t → t ≤ t1 → S.velocity (S.param t) d = (curve S.n S.P d).eval ((t - S.s0) / (S.s1 - S.s0)) := fun t a b => by
    rw [param_eq S h t ⟨by linarith, by linarith⟩]; exact velocity_eq S _ d
  rw [e s hs (by linarith), e s' (by linarith) hs1]
  have key := Convex.norm_image_sub_le_of_norm_deriv_le (𝕜 := ℝ) (f := fun t => (curve S.n S.P d).eval ((t - S.s0) / (S.s1 - S.s0))) (s := Set.Icc t0 t1) (C := B)
    (x := s') (y := s) (fun x _ => by fun_prop) (fun x hx => by
      obtain ⟨v, hv, hv'⟩ := hB x hx.1 hx.2
      rw [C54_derivative S h 1 (by omega)] at hv
      rw [iteratedDeriv_one] at hv
      rw [Option.some.inj hv]
      exact hv') (convex_Icc t0 t1) ⟨by linarith, hs1⟩ ⟨hs, by linarith⟩
  rw [Real.norm_eq_abs, Real.norm_eq_abs, abs_sub_comm s s', abs_of_nonneg (sub_nonneg.2 hs')] at key
  rw [mul_comm]
  exact key

/-- C137 (partial): between two parameters of an interval, a point of a body carried by a ball joint moves by at most its distance to the joint, times the norm of the velocity bound of the
joint on this interval, times the difference of the parameters: what continuous validation assumes.  Missing: degrees 5 and 7, for which `velocityBound` is wrong (C54). -/
theorem C137_bound_partial (S : Spl Q) (hn : S.n = 1 ∨ S.n = 3) (h : S.s0 < S.s1) (b : ℍ[ℝ]) (hb : ‖b‖ = 1) (r : ℕ) {t0 t1 : ℝ} (h0 : S.s0 ≤ t0) (h1 : t1 ≤ S.s1) :
    ∃ B : ℕ → ℝ, (∀ d, S.velocityBound t0 t1 d = some (B d)) ∧ ∀ s s' x, t0 ≤ s → s ≤ s' → s' ≤ t1 →
      ‖rot (ballAt S b r s) x - rot (ballAt S b r s') x‖ ≤ ‖x‖ * ang (fun d => B (r + d)) * (s' - s) := by
  have hL : S.s1 - S.s0 ≠ 0 := by linarith
  refine ⟨fun d => (S.velocityBound t0 t1 d).getD 0, fun d => by simp [Spl.velocityBound, hL], fun s s' x hs hs' hs1 => ?_⟩
  refine (integrate_sub b hb _ _ x).trans ?_
  have : dist3 (fun d => S.velocity (S.param s) (r + d)) (fun d => S.velocity (S.param s') (r + d)) ≤ (s' - s) * ang (fun d => (S.velocityBound t0 t1 (r + d)).getD 0) := by
    apply ang_le (sub_nonneg.2 hs')
    intro d _
    refine velocity_sub S h h0 h1 (r + d) _ (fun t a c => ?_) hs hs' hs1
    obtain ⟨v, c, hv, hc, hvc⟩ := C54_velocityBound_partial S hn h t0 t1 h0 h1 t ⟨a, c⟩ (r + d)
    exact ⟨v, hv, by rw [hc]; exact hvc⟩
  nlinarith [norm_nonneg x]

/-- C137: the same with `maxVelocity`, for splines of all degrees, on the whole range. -/
theorem C137_maxVelocity (S : Spl Q) (h : S.s0 < S.s1) (b : ℍ[ℝ]) (hb : ‖b‖ = 1) (r : ℕ) (s s' : ℝ) (x : ℍ[ℝ]) (hs : S.s0 ≤ s) (hs' : s ≤ s') (hs1 : s' ≤ S.s1) :
    ‖rot (ballAt S b r s) x - rot (ballAt S b r s') x‖ ≤ ‖x‖ * ang (fun d => S.maxVelocity (r + d)) * (s' - s) := by
  refine (integrate_sub b hb _ _ x).trans ?_
  have : dist3 (fun d => S.velocity (S.param s) (r + d)) (fun d => S.velocity (S.param s') (r + d)) ≤ (s' - s) * ang (fun d => S.maxVelocity (r + d)) := by
    apply ang_le (sub_nonneg.2 hs')
    intro d _
    exact velocity_sub S h le_rfl le_rfl (r + d) _ (fun t a c => C54_maxVelocity S h t ⟨a, c⟩ (r + d)) hs hs' hs1
  nlinarith [norm_nonneg x]

/-! ## Straight paths -/

/-- Orientation of a ball joint along a straight path on `[s0, s1]`, from `q0` to `q1`, `l` being the difference of the configurations for this joint: straight-path.cc:90-110. -/
noncomputable def straightAt (s0 s1 : ℝ) (q0 q1 : ℍ[ℝ]) (l : ℕ → ℝ) (s : ℝ) : ℍ[ℝ] :=
  if s = s0 ∨ s1 - s0 = 0 then q0 else if s = s1 then q1 else integrateSO3 q0 fun d => (s - s0) / (s1 - s0) * l d

/-- `velocityBound` of this joint: straight-path.cc:132-140. -/
noncomputable def straightBound (s0 s1 : ℝ) (l : ℕ → ℝ) (d : ℕ) : ℝ := if s0 = s1 then 0 else |l d| / (s1 - s0)

/-- At every parameter the orientation is the one obtained by following the difference, the quaternions being equal or opposite. -/
theorem straight_rot {s0 s1 : ℝ} (h : s0 < s1) (q0 q1 : ℍ[ℝ]) (l : ℕ → ℝ) (hl : integrateSO3 q0 l = q1 ∨ integrateSO3 q0 l = -q1) (s : ℝ) (x : ℍ[ℝ]) :
    rot (straightAt s0 s1 q0 q1 l s) x = rot (integrateSO3 q0 fun d => (s - s0) / (s1 - s0) * l d) x := by
  have hL : 0 < s1 - s0 := sub_pos.2 h
  unfold straightAt
  by_cases h0 : s = s0
  · rw [if_pos (Or.inl h0)]
    have : (fun d => (s - s0) / (s1 - s0) * l d) = 0 := by funext d; simp [h0]
    rw [this, integrateSO3_zero]
  · rw [if_neg (by rintro (a | a) <;> [exact h0 a; exact hL.ne' a])]
    split
    · next h1 =>
      have : (fun d => (s - s0) / (s1 - s0) * l d) = l := by funext d; rw [h1, div_self hL.ne', one_mul]
      rw [this]
      rcases hl with hl | hl
      · rw [hl]
      · rw [hl, rot, rot]; simp
    · rfl

/-- C137: straight paths.  Hypothesis `hl`: contract of the difference of configurations, which gives `q1` or the opposite quaternion when it is followed from `q0`. -/
theorem C137_straight {s0 s1 : ℝ} (h : s0 < s1) (q0 q1 : ℍ[ℝ]) (hq : ‖q0‖ = 1) (l : ℕ → ℝ) (hl : integrateSO3 q0 l = q1 ∨ integrateSO3 q0 l = -q1) (s s' : ℝ) (hs : s ≤ s') (x : ℍ[ℝ]) :
    ‖rot (straightAt s0 s1 q0 q1 l s) x - rot (straightAt s0 s1 q0 q1 l s') x‖ ≤ ‖x‖ * ang (straightBound s0 s1 l) * (s' - s) := by
  rw [straight_rot h q0 q1 l hl, straight_rot h q0 q1 l hl]
  refine (integrate_sub q0 hq _ _ x).trans ?_
  have hL : 0 < s1 - s0 := sub_pos.2 h
  have : dist3 (fun d => (s - s0) / (s1 - s0) * l d) (fun d => (s' - s0) / (s1 - s0) * l d) ≤ (s' - s) * ang (straightBound s0 s1 l) := by
    apply ang_le (sub_nonneg.2 hs)
    intro d _
    rw [← sub_mul, ← sub_div, abs_mul, abs_div, abs_of_pos hL, straightBound, if_neg h.ne]
    rw [show s - s0 - (s' - s0) = -(s' - s) by ring, abs_neg, abs_of_nonneg (sub_nonneg.2 hs)]
    apply le_of_eq; field_simp
  nlinarith [norm_nonneg x]

/-- A quarter turn. -/
example (x : ℍ[ℝ]) : ‖rot (straightAt 0 2 1 (expQ turn1) turn1 0) x - rot (straightAt 0 2 1 (expQ turn1) turn1 1) x‖ ≤ ‖x‖ * ang (straightBound 0 2 turn1) * (1 - 0) :=
  C137_straight (by norm_num) 1 _ (by simp) turn1 (Or.inl (by simp [integrateSO3])) 0 1 (by norm_num) x

/-! ## Degrees of freedom -/

/-- From half a turn about the first axis, the second coordinate of the tangent vector varies at unit speed. -/
noncomputable def wobble : Spl ℍ[ℝ] := ⟨1, 1, fun i d => if d = 0 then Real.pi else if d = 1 then (if i = 0 then -1 else 1) else 0, -1, 1⟩

theorem wobble_velocity (s : ℝ) (h0 : -1 ≤ s) (h1 : s ≤ 1) (d : ℕ) : wobble.velocity (wobble.param s) d = if d = 0 then Real.pi else if d = 1 then s else 0 := by
  rw [param_eq wobble (by norm_num [wobble]) s ⟨h0, h1⟩, velocity_eq]
  simp only [wobble, curve]
  rw [Finset.sum_range_succ, Finset.sum_range_one]
  simp only [bernsteinPolynomial, Polynomial.eval_add, Polynomial.eval_mul, Polynomial.eval_C, Polynomial.eval_pow, Polynomial.eval_X, Polynomial.eval_sub, Polynomial.eval_one, Polynomial.eval_natCast]
  split
  · norm_num; ring
  · split
    · norm_num; ring
    · norm_num

/-- C137: the velocity bound does not bound the velocities of a ball joint one by one.  The joint turns about its third axis with velocity `-2 / π` (third coordinate of `2 q⁻¹ q'`), whereas the third velocity bound is null. -/
theorem C137_coordinate_counterexample :
    wobble.velocityBound (-1) 1 2 = some 0 ∧
    HasDerivAt (fun s => 2 * (star (ballAt wobble 1 0 0) * ballAt wobble 1 0 s).imK) (-2 / Real.pi) 0 := by
  have hpi := Real.pi_pos
  constructor
  · unfold Spl.velocityBound
    rw [if_neg (by norm_num [wobble])]
    simp [wobble]
  · have ang_eq : ∀ s : ℝ, -1 ≤ s → s ≤ 1 → ang (fun d => wobble.velocity (wobble.param s) (0 + d)) = √(Real.pi ^ 2 + s ^ 2) := fun s h0 h1 => by
      unfold ang
      simp only [wobble_velocity s h0 h1]
      norm_num
    have e0 : ang (fun d => wobble.velocity (wobble.param 0) (0 + d)) = Real.pi := by
      rw [ang_eq 0 (by norm_num) (by norm_num)]
      rw [zero_pow two_ne_zero, add_zero, Real.sqrt_sq hpi.le]
    have key : ∀ s : ℝ, -1 < s → s < 1 → 2 * (star (ballAt wobble 1 0 0) * ballAt wobble 1 0 s).imK = -2 * (Real.sin (√(Real.pi ^ 2 + s ^ 2) / 2) / √(Real.pi ^ 2 + s ^ 2)) * s := by
      intro s h0 h1
      have hs : √(Real.pi ^ 2 + s ^ 2) ≠ 0 := (Real.sqrt_pos.2 (by positivity)).ne'
      simp only [ballAt, integrateSO3, one_mul, Quaternion.imK_mul, Quaternion.re_star, Quaternion.imI_star, Quaternion.imJ_star, Quaternion.imK_star, expQ_re, expQ_imI, expQ_imJ, expQ_imK, sc, e0,
        ang_eq s h0.le h1.le]
      simp only [wobble_velocity 0 (by norm_num) (by norm_num), wobble_velocity s h0.le h1.le]
      rw [if_neg hs, if_neg hpi.ne', Real.cos_pi_div_two, Real.sin_pi_div_two]
      norm_num
      field_simp
    have hd : HasDerivAt (fun s : ℝ => -2 * (Real.sin (√(Real.pi ^ 2 + s ^ 2) / 2) / √(Real.pi ^ 2 + s ^ 2)) * s) (-2 / Real.pi) 0 := by
      have hg : DifferentiableAt ℝ (fun s : ℝ => -2 * (Real.sin (√(Real.pi ^ 2 + s ^ 2) / 2) / √(Real.pi ^ 2 + s ^ 2))) 0 := by
        have hq : DifferentiableAt ℝ (fun s : ℝ => √(Real.pi ^ 2 + s ^ 2)) 0 := DifferentiableAt.sqrt (by fun_prop) (by positivity)
        have hq0 : √(Real.pi ^ 2 + (0 : ℝ) ^ 2) ≠ 0 := (Real.sqrt_pos.2 (by positivity)).ne'
        exact ((hq.div_const 2).sin.div hq hq0).const_mul _
      have := hg.hasDerivAt.mul (hasDerivAt_id (0 : ℝ))
      have e : (-2 * (Real.sin (√(Real.pi ^ 2 + (0:ℝ) ^ 2) / 2) / √(Real.pi ^ 2 + (0:ℝ) ^ 2))) = -2 / Real.pi := by
        rw [zero_pow two_ne_zero, add_zero, Real.sqrt_sq hpi.le, Real.sin_pi_div_two, mul_one_div]
      simp only [id, mul_zero, zero_add, mul_one] at this
      rw [e] at this
      exact this
    refine hd.congr_of_eventuallyEq ?_
    filter_upwards [Ioo_mem_nhds (show (-1:ℝ) < 0 by norm_num) (show (0:ℝ) < 1 by norm_num)] with s hs
    exact key s hs.1 hs.2

/-! ## Examples -/

/-- A cubic spline of a robot with a translation and a ball joint at rank 1, on `[0, 2]`: the theorem applies on any interval. -/
example : ∃ B : ℕ → ℝ, (∀ d, (⟨3, (), fun i d => i * d, 0, 2⟩ : Spl Unit).velocityBound 0 1 d = some (B d)) ∧ ∀ s s' x, 0 ≤ s → s ≤ s' → s' ≤ 1 →
      ‖rot (ballAt ⟨3, (), fun i d => i * d, 0, 2⟩ 1 1 s) x - rot (ballAt ⟨3, (), fun i d => i * d, 0, 2⟩ 1 1 s') x‖ ≤ ‖x‖ * ang (fun d => B (1 + d)) * (s' - s) :=
  C137_bound_partial (⟨3, (), fun i d => i * d, 0, 2⟩ : Spl Unit) (Or.inr rfl) (by norm_num) 1 (by simp) 1 le_rfl (by norm_num)

end Verif.Ball
