import Verif.Car.Derivative
import Verif.ContinuousValidation.Uniform
import Verif.ContinuousValidation.Vector
import Mathlib.Analysis.Calculus.MeanValue
import Mathlib.Analysis.SpecialFunctions.Pow.Real
set_option linter.unusedSectionVars false

/-!
# Continuous validation of the paths of car-like robots (C86, C159)

Continuous validation uses only the norm of the components of the velocity bound that belong to the same joint (solid-solid-collision.cc:76-99).  The components of the bound of a path
of constant curvature may each be too small (C86), their norm is not: it is at least the speed of the car, which is constant.  Paths accepted by continuous validation
are thus free, the refinement of the velocity included.
-/
namespace Verif.Car
open Complex Verif.CV Verif.PathV

variable {E W : Type} [AddCommGroup E] [Module ℝ E]

/-! ## The norm of the bound -/

theorem absCosineMax_ge (a b : ℝ) : |Real.cos a| ≤ absCosineMax a b ∧ |Real.cos b| ≤ absCosineMax a b ∧ absCosineMax a b ≤ 1 := by
  have ha := Real.abs_cos_le_one a
  have hb := Real.abs_cos_le_one b
  unfold absCosineMax
  split
  · exact ⟨le_max_left _ _, le_max_right _ _, max_le ha hb⟩
  · split
    · exact ⟨ha, hb, le_rfl⟩
    · exact ⟨le_max_left _ _, le_max_right _ _, max_le ha hb⟩

/-- The value of `absSineMax` is 1, or the sine of one of the two angles, up to the sign. -/
theorem absSineMax_sq (a b : ℝ) : absSineMax a b ^ 2 = 1 ∨ absSineMax a b ^ 2 = Real.sin a ^ 2 ∨ absSineMax a b ^ 2 = Real.sin b ^ 2 := by
  unfold absSineMax
  split
  · exact Or.inr (Or.inr rfl)
  · split
    · exact Or.inl (one_pow 2)
    · split
      · exact Or.inr (Or.inl (by ring))
      · split
        · exact Or.inl (one_pow 2)
        · rcases max_choice (Real.sin a) (Real.sin b) with h | h <;> rw [h] <;> simp

theorem absMax_norm (a b : ℝ) : 1 ≤ absCosineMax a b ^ 2 + absSineMax a b ^ 2 ∧ absCosineMax a b ^ 2 + absSineMax a b ^ 2 ≤ 2 := by
  obtain ⟨h1, h2, h3⟩ := absCosineMax_ge a b
  have q1 := sq_le_sq' (by linarith [abs_nonneg (Real.cos a), neg_abs_le (Real.cos a)]) h1
  have q2 := sq_le_sq' (by linarith [abs_nonneg (Real.cos b), neg_abs_le (Real.cos b)]) h2
  rw [sq_abs] at q1 q2
  have q3 : absCosineMax a b ^ 2 ≤ 1 := by nlinarith [abs_nonneg (Real.cos a)]
  have ea := Real.sin_sq_add_cos_sq a
  have eb := Real.sin_sq_add_cos_sq b
  have na := sq_nonneg (Real.cos a)
  have nb := sq_nonneg (Real.cos b)
  rcases absSineMax_sq a b with h | h | h <;> rw [h] <;> constructor <;> nlinarith

/-- C86: the norm of the two components of the bound of the velocity of the position is at least the speed of the car, on any interval, also where the components are wrong; it is at
most √2 times the speed. -/
theorem C86_bound_norm (K : CC E W) (hl : K.t0 < K.t1) (p0 p1 : ℝ) :
    |K.speed| ≤ √((K.velocityBound p0 p1).1 ^ 2 + (K.velocityBound p0 p1).2.1 ^ 2) ∧
    √((K.velocityBound p0 p1).1 ^ 2 + (K.velocityBound p0 p1).2.1 ^ 2) ≤ √2 * |K.speed| := by
  have hp : 0 < K.t1 - K.t0 := sub_pos.2 hl
  have key : ∃ M : ℝ × ℝ, (K.velocityBound p0 p1).1 = |K.speed| * M.1 ∧ (K.velocityBound p0 p1).2.1 = |K.speed| * M.2 ∧ 1 ≤ M.1 ^ 2 + M.2 ^ 2 ∧ M.1 ^ 2 + M.2 ^ 2 ≤ 2 := by
    have e : |K.curveLength| / (K.t1 - K.t0) = |K.speed| := by rw [CC.speed, abs_div, abs_of_pos hp]
    unfold CC.velocityBound
    rw [if_neg hl.ne, e]
    refine ⟨_, rfl, rfl, ?_⟩
    split
    · split
      · norm_num
      · exact absMax_norm _ _
    · norm_num
  obtain ⟨M, e1, e2, m1, m2⟩ := key
  rw [e1, e2, show (|K.speed| * M.1) ^ 2 + (|K.speed| * M.2) ^ 2 = (M.1 ^ 2 + M.2 ^ 2) * |K.speed| ^ 2 by ring, Real.sqrt_mul (by positivity), Real.sqrt_sq (abs_nonneg _)]
  constructor
  · have : 1 ≤ √(M.1 ^ 2 + M.2 ^ 2) := by rw [← Real.sqrt_one]; exact Real.sqrt_le_sqrt m1
    nlinarith [abs_nonneg K.speed]
  · exact mul_le_mul_of_nonneg_right (Real.sqrt_le_sqrt m2) (abs_nonneg _)

/-- The norm is right where the components are not (`C86_angles_counterexample`). -/
example : (turn3.velocityBound 0 2).1 < 1 ∧ 1 ≤ √((turn3.velocityBound 0 2).1 ^ 2 + (turn3.velocityBound 0 2).2.1 ^ 2) := by
  refine ⟨C86_angles_counterexample.2.1, ?_⟩
  have := (C86_bound_norm turn3 (by simp [turn3, CC.create]) 0 2).1
  rwa [show turn3.speed = 1 by simp [CC.speed, turn3, CC.create], abs_one] at this

/-! ## Displacements of the car -/

theorem pose_deriv (K : CC E W) (hl : K.t0 < K.t1) (t : ℝ) :
    HasDerivAt (fun t => (K.eval t).pose.1) (K.speed * (K.eval t).pose.2) t ∧
    HasDerivAt (fun t => (K.eval t).pose.2) (K.speed * K.curvature * (I * (K.eval t).pose.2)) t := by
  obtain ⟨hx, hy, hc, hs⟩ := C85_rolling K hl t
  have e : ∀ f g : ℝ → ℝ, (fun t => (⟨f t, g t⟩ : ℂ)) = fun t => (f t : ℂ) + (g t : ℂ) * I := by
    intro f g; funext t; rw [Complex.ext_iff]; simp
  constructor
  · show HasDerivAt (fun t => (⟨(K.eval t).x, (K.eval t).y⟩ : ℂ)) _ t
    rw [e]
    refine (hx.ofReal_comp.add (hy.ofReal_comp.mul_const I)).congr_deriv ?_
    rw [Complex.ext_iff]
    simp [Cfg.pose, CC.speed]
    constructor <;> ring
  · show HasDerivAt (fun t => (⟨(K.eval t).c, (K.eval t).s⟩ : ℂ)) _ t
    rw [e]
    refine (hc.ofReal_comp.add (hs.ofReal_comp.mul_const I)).congr_deriv ?_
    rw [Complex.ext_iff]
    simp [Cfg.pose, CC.speed]
    constructor <;> ring

theorem heading_norm (K : CC E W) (hn : K.init.c ^ 2 + K.init.s ^ 2 = 1) (t : ℝ) : ‖(K.eval t).pose.2‖ = 1 := by
  have := C85_heading K hn t
  show ‖(⟨(K.eval t).c, (K.eval t).s⟩ : ℂ)‖ = 1
  rw [Complex.norm_def, Complex.normSq_mk, Real.sqrt_eq_one]
  linarith

/-- C86: the car moves and turns no faster than its speed and its speed of rotation. -/
theorem C86_displacement (K : CC E W) (hl : K.t0 < K.t1) (hn : K.init.c ^ 2 + K.init.s ^ 2 = 1) (u v : ℝ) :
    ‖(K.eval u).pose.1 - (K.eval v).pose.1‖ ≤ |K.speed| * |u - v| ∧ ‖(K.eval u).pose.2 - (K.eval v).pose.2‖ ≤ |K.speed * K.curvature| * |u - v| := by
  constructor
  · refine Convex.norm_image_sub_le_of_norm_hasDerivWithin_le (s := Set.univ) (f := fun t => (K.eval t).pose.1) (fun x _ => (pose_deriv K hl x).1.hasDerivWithinAt) ?_
      convex_univ (Set.mem_univ v) (Set.mem_univ u)
    intro x _
    rw [norm_mul, heading_norm K hn, mul_one, Complex.norm_real, Real.norm_eq_abs]
  · refine Convex.norm_image_sub_le_of_norm_hasDerivWithin_le (s := Set.univ) (f := fun t => (K.eval t).pose.2) (fun x _ => (pose_deriv K hl x).2.hasDerivWithinAt) ?_
      convex_univ (Set.mem_univ v) (Set.mem_univ u)
    intro x _
    rw [norm_mul, norm_mul, norm_mul, heading_norm K hn, Complex.norm_I, mul_one, mul_one, Complex.norm_real, Complex.norm_real, Real.norm_eq_abs, Real.norm_eq_abs, abs_mul]

/-! ## Pairs of bodies -/

variable {ι : Type} [Fintype ι]

/-- Coefficients of a pair of bodies (`CoefficientVelocities_t`, C55), by joint: the position and the heading of the car are moved by a planar joint (3 degrees of freedom, coefficient
`xy`) or by two joints (coefficients `xy` and `rz`); `other`: joints of one degree of freedom.  The wheels, whose bound is 0, are left out. -/
structure Coefs (ι : Type) where
  planar : Bool
  xy : ℝ
  rz : ℝ
  other : ι → ℝ

/-- `impl_velocityBound`, with the other degrees of freedom: constant-curvature.cc:313-378. -/
noncomputable def CC.fullBound (K : CC (ι → ℝ) W) (p0 p1 : ℝ) : (ℝ × ℝ × ℝ) × (ι → ℝ) :=
  (K.velocityBound p0 p1, fun j => if K.t0 = K.t1 then 0 else |K.fin.o j - K.init.o j| / (K.t1 - K.t0))

/-- The sum over the coefficients: solid-solid-collision.cc:77-83 or 86-92. -/
noncomputable def Coefs.total (k : Coefs ι) (b : (ℝ × ℝ × ℝ) × (ι → ℝ)) : ℝ :=
  (if k.planar then k.xy * √(b.1.1 ^ 2 + b.1.2.1 ^ 2 + b.1.2.2 ^ 2) else k.xy * √(b.1.1 ^ 2 + b.1.2.1 ^ 2) + k.rz * √(b.1.2.2 ^ 2)) + ∑ j, k.other j * √(b.2 j ^ 2)

/-- Two objects: signed distance (only in the specification) and answer of the collision library (`none`: collision). -/
structure CarObj (ι W : Type) where
  dist : Cfg (ι → ℝ) W → ℝ
  collide : Cfg (ι → ℝ) W → Option ℝ

/-- A pair of bodies; `coefR`: `coefficients_reverse`, if the second body belongs to a joint. -/
structure CarPair (ι W : Type) where
  objs : List (CarObj ι W)
  coef : Coefs ι
  coefR : Option (Coefs ι)
  tol : ℝ

/-- `computeMaximalVelocity`: solid-solid-collision.cc:76-99. -/
noncomputable def CarPair.maxVel (c : CarPair ι W) (b : (ℝ × ℝ × ℝ) × (ι → ℝ)) : ℝ :=
  match c.coefR with
  | none => c.coef.total b
  | some r => if r.total b < c.coef.total b then r.total b else c.coef.total b

/-- The pair once a path of constant curvature is set: interval-validation.hh:84-90, body-pair-collision.cc:102-120.  An infinite bound (never reached, see
`C159_finite`) is replaced by that of the path. -/
noncomputable def CarPair.cfg (c : CarPair ι W) (K : CC (ι → ℝ) W) : PairCfg ℝ :=
  ⟨c.objs.map fun o => ⟨fun t => o.collide (K.eval t), fun t => o.dist (K.eval t)⟩, fun tm tM => c.maxVel (K.fullBound (tm.getD K.t0) (tM.getD K.t1)), c.tol, K.t0, K.t1, false⟩

/-- Assumption on the coefficients (C55): distances vary no faster than the displacements weighed by the coefficients; `lin` and `ang` are the parts of the coefficient of
a planar joint for the position and the heading. -/
def Coefs.Bounds (k : Coefs ι) (dist : Cfg (ι → ℝ) W → ℝ) : Prop :=
  (∀ j, 0 ≤ k.other j) ∧ ∃ lin ang, 0 ≤ lin ∧ 0 ≤ ang ∧ (if k.planar then lin + ang ≤ k.xy else lin ≤ k.xy ∧ ang ≤ k.rz) ∧
    ∀ a b : Cfg (ι → ℝ) W, a.wheel = b.wheel →
      |dist a - dist b| ≤ lin * ‖a.pose.1 - b.pose.1‖ + ang * ‖a.pose.2 - b.pose.2‖ + ∑ j, k.other j * |a.o j - b.o j|

/-- What is assumed of a pair. -/
structure CarPair.Ok (c : CarPair ι W) : Prop where
  tol : 0 < c.tol
  lower : ∀ o ∈ c.objs, ∀ q d, o.collide q = some d → 0 < d ∧ d ≤ o.dist q
  coef : ∀ o ∈ c.objs, c.coef.Bounds o.dist
  coefR : ∀ o ∈ c.objs, ∀ r ∈ c.coefR, r.Bounds o.dist
  nonneg : 0 ≤ c.coef.xy ∧ 0 ≤ c.coef.rz ∧ (∀ j, 0 ≤ c.coef.other j) ∧ ∀ r ∈ c.coefR, 0 ≤ r.xy ∧ 0 ≤ r.rz ∧ ∀ j, 0 ≤ r.other j

/-- The smallest value of the sum over the coefficients on any interval: the one at the speed of the car. -/
noncomputable def Coefs.least (k : Coefs ι) (K : CC (ι → ℝ) W) : ℝ :=
  if K.t0 = K.t1 then 0 else
  (if k.planar then k.xy * √(K.speed ^ 2 + (K.speed * K.curvature) ^ 2) else k.xy * |K.speed| + k.rz * |K.speed * K.curvature|) +
    ∑ j, k.other j * (|K.fin.o j - K.init.o j| / (K.t1 - K.t0))

/-- A value above the sum on any interval. -/
noncomputable def Coefs.most (k : Coefs ι) (K : CC (ι → ℝ) W) : ℝ :=
  if K.t0 = K.t1 then 0 else
  (if k.planar then k.xy * √(2 * K.speed ^ 2 + (K.speed * K.curvature) ^ 2) else k.xy * (√2 * |K.speed|) + k.rz * |K.speed * K.curvature|) +
    ∑ j, k.other j * (|K.fin.o j - K.init.o j| / (K.t1 - K.t0))

theorem total_between {k : Coefs ι} (hx : 0 ≤ k.xy) (K : CC (ι → ℝ) W) (hl : K.t0 ≤ K.t1) (p0 p1 : ℝ) :
    k.least K ≤ k.total (K.fullBound p0 p1) ∧ k.total (K.fullBound p0 p1) ≤ k.most K := by
  rcases hl.eq_or_lt with h | h
  · simp [Coefs.least, Coefs.most, Coefs.total, CC.fullBound, CC.velocityBound, h]
  · have hp : 0 < K.t1 - K.t0 := sub_pos.2 h
    have hr := C86_bound_rotation K h p0 p1
    obtain ⟨n1, n2⟩ := C86_bound_norm K h p0 p1
    have hsum : ∑ j, k.other j * √((K.fullBound p0 p1).2 j ^ 2) = ∑ j, k.other j * (|K.fin.o j - K.init.o j| / (K.t1 - K.t0)) := by
      refine Finset.sum_congr rfl fun j _ => ?_
      have : (K.fullBound p0 p1).2 j = |K.fin.o j - K.init.o j| / (K.t1 - K.t0) := by simp only [CC.fullBound, if_neg h.ne]
      rw [this, Real.sqrt_sq (by positivity)]
    have s1 : K.speed ^ 2 ≤ (K.velocityBound p0 p1).1 ^ 2 + (K.velocityBound p0 p1).2.1 ^ 2 := by
      rw [← sq_abs]; exact (Real.le_sqrt (abs_nonneg _) (by positivity)).1 n1
    have s2 : (K.velocityBound p0 p1).1 ^ 2 + (K.velocityBound p0 p1).2.1 ^ 2 ≤ 2 * K.speed ^ 2 := by
      have := (Real.sqrt_le_left (by positivity)).1 n2
      rwa [mul_pow, Real.sq_sqrt (by norm_num), sq_abs] at this
    have hr2 : (K.velocityBound p0 p1).2.2 ^ 2 = (K.speed * K.curvature) ^ 2 := by rw [hr, sq_abs]
    unfold Coefs.least Coefs.most Coefs.total
    rw [if_neg h.ne, if_neg h.ne, hsum]
    simp only [CC.fullBound]
    rw [hr2, Real.sqrt_sq_eq_abs (K.speed * K.curvature)]
    cases k.planar with
    | true =>
      simp only [if_true]
      exact ⟨add_le_add_left (mul_le_mul_of_nonneg_left (Real.sqrt_le_sqrt (by linarith)) hx) _,
        add_le_add_left (mul_le_mul_of_nonneg_left (Real.sqrt_le_sqrt (by linarith)) hx) _⟩
    | false =>
      simp only [Bool.false_eq_true, if_false]
      exact ⟨add_le_add_left (add_le_add_left (mul_le_mul_of_nonneg_left n1 hx) _) _, add_le_add_left (add_le_add_left (mul_le_mul_of_nonneg_left n2 hx) _) _⟩

theorem least_nonneg {k : Coefs ι} (hx : 0 ≤ k.xy) (hz : 0 ≤ k.rz) (ho : ∀ j, 0 ≤ k.other j) (K : CC (ι → ℝ) W) (hl : K.t0 ≤ K.t1) : 0 ≤ k.least K := by
  unfold Coefs.least
  split
  · exact le_rfl
  · have hs : 0 ≤ ∑ j, k.other j * (|K.fin.o j - K.init.o j| / (K.t1 - K.t0)) :=
      Finset.sum_nonneg fun j _ => mul_nonneg (ho j) (div_nonneg (abs_nonneg _) (sub_nonneg.2 hl))
    split
    · positivity
    · positivity

/-- Distances along a path vary no faster than the smallest sum. -/
theorem least_lip {k : Coefs ι} {dist : Cfg (ι → ℝ) W → ℝ} (hk : k.Bounds dist) (K : CC (ι → ℝ) W) (hl : K.t0 ≤ K.t1) (hn : K.init.c ^ 2 + K.init.s ^ 2 = 1)
    {u v : ℝ} (hu1 : K.t0 ≤ u) (hu2 : u ≤ K.t1) (hv1 : K.t0 ≤ v) (hv2 : v ≤ K.t1) : |dist (K.eval u) - dist (K.eval v)| ≤ k.least K * |u - v| := by
  rcases hl.eq_or_lt with h | h
  · have : u = v := by linarith
    simp [this]
  · obtain ⟨ho, lin, ang, h1, h2, h3, h4⟩ := hk
    obtain ⟨d1, d2⟩ := C86_displacement K h hn u v
    have hp : 0 < K.t1 - K.t0 := sub_pos.2 h
    refine (h4 (K.eval u) (K.eval v) rfl).trans ?_
    have hsum : ∑ j, k.other j * |(K.eval u).o j - (K.eval v).o j| = (∑ j, k.other j * (|K.fin.o j - K.init.o j| / (K.t1 - K.t0))) * |u - v| := by
      rw [Finset.sum_mul]
      refine Finset.sum_congr rfl fun j _ => ?_
      have : (K.eval u).o j - (K.eval v).o j = (K.fin.o j - K.init.o j) / (K.t1 - K.t0) * (u - v) := by
        simp only [CC.eval, lerp, CC.ratio, if_neg hp.ne', Pi.add_apply, Pi.smul_apply, Pi.sub_apply, smul_eq_mul]
        field_simp
        ring
      rw [this, abs_mul, abs_div, abs_of_pos hp, mul_assoc]
    rw [hsum]
    unfold Coefs.least
    rw [if_neg h.ne, add_mul]
    refine add_le_add_left ?_ _
    have m1 := mul_le_mul_of_nonneg_left d1 h1
    have m2 := mul_le_mul_of_nonneg_left d2 h2
    have hd := abs_nonneg (u - v)
    cases hpl : k.planar with
    | true =>
      rw [hpl] at h3
      simp only [if_true] at h3 ⊢
      have r1 : |K.speed| ≤ √(K.speed ^ 2 + (K.speed * K.curvature) ^ 2) := Real.abs_le_sqrt (by nlinarith [sq_nonneg (K.speed * K.curvature)])
      have r2 : |K.speed * K.curvature| ≤ √(K.speed ^ 2 + (K.speed * K.curvature) ^ 2) := Real.abs_le_sqrt (by nlinarith [sq_nonneg K.speed])
      have n1 := mul_le_mul_of_nonneg_left (mul_le_mul_of_nonneg_right r1 hd) h1
      have n2 := mul_le_mul_of_nonneg_left (mul_le_mul_of_nonneg_right r2 hd) h2
      have n3 := mul_le_mul_of_nonneg_right h3 (mul_nonneg (Real.sqrt_nonneg (K.speed ^ 2 + (K.speed * K.curvature) ^ 2)) hd)
      nlinarith
    | false =>
      rw [hpl] at h3
      simp only [Bool.false_eq_true, if_false] at h3 ⊢
      have n1 := mul_le_mul_of_nonneg_right h3.1 (mul_nonneg (abs_nonneg K.speed) hd)
      have n2 := mul_le_mul_of_nonneg_right h3.2 (mul_nonneg (abs_nonneg (K.speed * K.curvature)) hd)
      nlinarith

/-- The smallest velocity of a pair. -/
noncomputable def CarPair.least (c : CarPair ι W) (K : CC (ι → ℝ) W) : ℝ := match c.coefR with
  | none => c.coef.least K
  | some r => min (c.coef.least K) (r.least K)

/-- The assumptions of `C159_pair` hold for all the arcs. -/
theorem carUni {c : CarPair ι W} (hc : c.Ok) (K : CC (ι → ℝ) W) (hl : K.t0 ≤ K.t1) (hn : K.init.c ^ 2 + K.init.s ^ 2 = 1) : UniOK (c.cfg K) (c.least K) := by
  exact {
    le := hl
    tol := hc.tol.le
    lower := by
      intro o ho t d hd
      obtain ⟨o', ho', rfl⟩ := List.mem_map.1 ho
      exact hc.lower o' ho' _ d hd
    lip := by
      intro o ho u v hu1 hu2 hv1 hv2
      obtain ⟨o', ho', rfl⟩ := List.mem_map.1 ho
      have l1 := least_lip (hc.coef o' ho') K hl hn hu1 hu2 hv1 hv2
      have l2 := fun r hr => least_lip (hc.coefR o' ho' r hr) K hl hn hu1 hu2 hv1 hv2
      show |o'.dist (K.eval u) - o'.dist (K.eval v)| ≤ c.least K * |u - v|
      unfold CarPair.least
      cases hr : c.coefR with
      | none => exact l1
      | some r =>
        simp only
        rcases min_choice (c.coef.least K) (r.least K) with h | h <;> rw [h]
        · exact l1
        · exact l2 r hr
    nonneg := by
      obtain ⟨h1, h2, h3, h4⟩ := hc.nonneg
      unfold CarPair.least
      cases hr : c.coefR with
      | none => exact least_nonneg h1 h2 h3 K hl
      | some r =>
        obtain ⟨k1, k2, k3⟩ := h4 r hr
        exact le_min (least_nonneg h1 h2 h3 K hl) (least_nonneg k1 k2 k3 K hl)
    under := by
      intro tm tM
      have l1 := (total_between hc.nonneg.1 K hl (tm.getD K.t0) (tM.getD K.t1)).1
      show c.least K ≤ c.maxVel (K.fullBound (tm.getD K.t0) (tM.getD K.t1))
      unfold CarPair.least CarPair.maxVel
      cases hr : c.coefR with
      | none => exact l1
      | some r =>
        have l2 := (total_between (hc.nonneg.2.2.2 r hr).1 K hl (tm.getD K.t0) (tM.getD K.t1)).1
        simp only
        split
        · exact (min_le_right _ _).trans l2
        · exact (min_le_left _ _).trans l1 }

theorem maxVel_le {c : CarPair ι W} (hc : c.Ok) (K : CC (ι → ℝ) W) (hl : K.t0 ≤ K.t1) (tm tM : Option ℝ) : (c.cfg K).vel tm tM ≤ c.coef.most K := by
  have l1 := (total_between hc.nonneg.1 K hl (tm.getD K.t0) (tM.getD K.t1)).2
  show c.maxVel (K.fullBound (tm.getD K.t0) (tM.getD K.t1)) ≤ _
  unfold CarPair.maxVel
  cases c.coefR with
  | none => exact l1
  | some r =>
    simp only
    split
    · rename_i h; exact h.le.trans l1
    · exact l1

theorem total_zero {k : Coefs ι} (hx : 0 ≤ k.xy) (hz : 0 ≤ k.rz) (ho : ∀ j, 0 ≤ k.other j) (K : CC (ι → ℝ) W) (hl : K.t0 ≤ K.t1) {a b : ℝ} (h : k.total (K.fullBound a b) = 0)
    (p0 p1 : ℝ) : k.total (K.fullBound p0 p1) = 0 := by
  have l1 := total_between hx K hl a b
  have l2 := total_between hx K hl p0 p1
  have l3 := least_nonneg hx hz ho K hl
  rcases hl.eq_or_lt with e | e
  · have : k.most K = 0 := by simp [Coefs.most, e]
    exact le_antisymm (this ▸ l2.2) (l3.trans l2.1)
  · have z : k.least K = 0 := le_antisymm (h ▸ l1.1) l3
    have hp : 0 < K.t1 - K.t0 := sub_pos.2 e
    refine le_antisymm (l2.2.trans ?_) (l3.trans l2.1)
    have hs : 0 ≤ ∑ j, k.other j * (|K.fin.o j - K.init.o j| / (K.t1 - K.t0)) :=
      Finset.sum_nonneg fun j _ => mul_nonneg (ho j) (div_nonneg (abs_nonneg _) hp.le)
    unfold Coefs.least at z
    unfold Coefs.most
    rw [if_neg e.ne] at z ⊢
    cases hpl : k.planar with
    | true =>
      rw [hpl] at z
      simp only [if_true] at z ⊢
      have a1 := mul_nonneg hx (Real.sqrt_nonneg (K.speed ^ 2 + (K.speed * K.curvature) ^ 2))
      have a2 : k.xy * √(K.speed ^ 2 + (K.speed * K.curvature) ^ 2) = 0 := by linarith
      rcases mul_eq_zero.1 a2 with q | q
      · rw [q] at z ⊢; linarith
      · rw [Real.sqrt_eq_zero (by positivity)] at q
        have q1 : K.speed ^ 2 = 0 := by nlinarith [sq_nonneg K.speed, sq_nonneg (K.speed * K.curvature)]
        have q2 : (K.speed * K.curvature) ^ 2 = 0 := by nlinarith [sq_nonneg K.speed, sq_nonneg (K.speed * K.curvature)]
        rw [q1, q2]
        simp
        linarith
    | false =>
      rw [hpl] at z
      simp only [Bool.false_eq_true, if_false] at z ⊢
      have a1 := mul_nonneg hx (abs_nonneg K.speed)
      have a2 := mul_nonneg hz (abs_nonneg (K.speed * K.curvature))
      have a3 : k.xy * |K.speed| = 0 := by linarith
      have : k.xy * (√2 * |K.speed|) = 0 := by rw [mul_left_comm, a3, mul_zero]
      linarith

/-- C159: the infinite bounds of the refinement are never reached: if the velocity vanishes on some interval, it vanishes on all of them, and there is no refinement. -/
theorem C159_finite {c : CarPair ι W} (hc : c.Ok) (K : CC (ι → ℝ) W) (hl : K.t0 ≤ K.t1) (tm tM : Option ℝ) (h : (c.cfg K).vel tm tM = 0) (p0 p1 : ℝ) :
    c.maxVel (K.fullBound p0 p1) = 0 := by
  obtain ⟨n1, n2, n3, n4⟩ := hc.nonneg
  have h' : c.maxVel (K.fullBound (tm.getD K.t0) (tM.getD K.t1)) = 0 := h
  have pos : ∀ p0 p1, 0 ≤ c.coef.total (K.fullBound p0 p1) := fun p0 p1 => (least_nonneg n1 n2 n3 K hl).trans (total_between n1 K hl p0 p1).1
  unfold CarPair.maxVel at h' ⊢
  cases hr : c.coefR with
  | none =>
    rw [hr] at h'
    exact total_zero n1 n2 n3 K hl h' p0 p1
  | some r =>
    obtain ⟨k1, k2, k3⟩ := n4 r hr
    have pos' : 0 ≤ r.total (K.fullBound p0 p1) := (least_nonneg k1 k2 k3 K hl).trans (total_between k1 K hl p0 p1).1
    rw [hr] at h'
    simp only at h' ⊢
    split at h'
    · have z := total_zero k1 k2 k3 K hl h' p0 p1
      split
      · exact z
      · rename_i q
        rw [z] at q
        exact le_antisymm (not_lt.1 q) (pos p0 p1)
    · have z := total_zero n1 n2 n3 K hl h' p0 p1
      rw [z, if_neg (not_lt.2 pos')]

/-! ## Validation of arcs -/

/-- The operations of a path of constant curvature, without constraints. -/
noncomputable def ccOps : Ops ℝ (Cfg E W) (CC E W) where
  lo K := K.t0
  hi K := K.t1
  eval K t := .ok (K.eval t)
  extract K a b := .ok (K.extract a b)
  reverse K := .ok K.reverse
  constraints _ := none
  copyWith _ K := K

/-- `ContinuousValidation::validate` on an arc: continuous-validation.cc:192-206, progressive or by dichotomy. -/
noncomputable def checkArc (prog : Bool) (pairs : List (CarPair ι W)) (fuel : Nat) (rev : Bool) (K : CC (ι → ℝ) W) : Except Err (Ans ℝ (CC (ι → ℝ) W)) :=
  (if prog then progressive ccOps (cvQuery (fun _ => true) K.t0 K.t1) (startPairs (pairs.map (·.cfg K))) rev fuel K
    else dichotomy ccOps (cvQuery (fun _ => true) K.t0 K.t1) (startPairs (pairs.map (·.cfg K))) rev fuel K).map fun r => (r.1, r.2.1, r.2.2.1)

/-- Specification: no pair of objects penetrates more than twice its tolerance. -/
def CarFree (pairs : List (CarPair ι W)) (q : Cfg (ι → ℝ) W) : Prop := ∀ c ∈ pairs, ∀ o ∈ c.objs, -(2 * c.tol) ≤ o.dist q

/-- Arcs as built by the library. -/
structure Arc (K : CC E W) : Prop where
  le : K.t0 ≤ K.t1
  unit : K.init.c ^ 2 + K.init.s ^ 2 = 1
  coherent : K.Coherent

/-- Bounds used for the number of iterations only. -/
noncomputable def topVel (pairs : List (CarPair ι W)) (K : CC (ι → ℝ) W) : ℝ := (pairs.map fun c => c.coef.most K).sum + 1
noncomputable def lowTol (pairs : List (CarPair ι W)) : ℝ := (pairs.map (·.tol)).foldr min 1

theorem lowTol_spec (l : List ℝ) (h : ∀ x ∈ l, 0 < x) : 0 < l.foldr min 1 ∧ ∀ x ∈ l, l.foldr min 1 ≤ x := by
  induction l with
  | nil => simp
  | cons a l ih =>
    obtain ⟨i1, i2⟩ := ih fun x hx => h x (List.mem_cons_of_mem _ hx)
    refine ⟨lt_min (h a (by simp)) i1, fun x hx => ?_⟩
    rcases List.mem_cons.1 hx with rfl | hx
    · exact min_le_left _ _
    · exact (min_le_right _ _).trans (i2 x hx)

theorem carPairs {pairs : List (CarPair ι W)} (hp : ∀ c ∈ pairs, c.Ok) {K : CC (ι → ℝ) W} (hK : Arc K) :
    0 < topVel pairs K ∧ 0 < lowTol pairs ∧ UniPairs K.t0 K.t1 (topVel pairs K) (2 * lowTol pairs / topVel pairs K) (pairs.map (·.cfg K)) := by
  have hn : ∀ x ∈ pairs.map fun c => c.coef.most K, 0 ≤ x := by
    intro x hx
    obtain ⟨c, hc, rfl⟩ := List.mem_map.1 hx
    have h := (hp c hc).nonneg
    have := total_between h.1 K hK.le K.t0 K.t1
    exact (least_nonneg h.1 h.2.1 h.2.2.1 K hK.le).trans (this.1.trans this.2)
  have hv : 0 < topVel pairs K := by
    have := List.sum_nonneg hn
    unfold topVel; linarith
  obtain ⟨t1, t2⟩ := lowTol_spec (pairs.map (·.tol)) (by
    intro x hx
    obtain ⟨c, hc, rfl⟩ := List.mem_map.1 hx
    exact (hp c hc).tol)
  refine ⟨hv, t1, ?_⟩
  intro c hc
  obtain ⟨c', hc', rfl⟩ := List.mem_map.1 hc
  refine ⟨⟨_, carUni (hp c' hc') K hK.le hK.unit⟩, rfl, rfl, fun tm tM => (maxVel_le (hp c' hc') K hK.le tm tM).trans ?_, ?_⟩
  · have := List.single_le_sum hn (c'.coef.most K) (List.mem_map.2 ⟨c', hc', rfl⟩)
    unfold topVel; linarith
  · have : lowTol pairs ≤ c'.tol := t2 _ (List.mem_map.2 ⟨c', hc', rfl⟩)
    show 2 * lowTol pairs / topVel pairs K ≤ 2 * c'.tol / topVel pairs K
    gcongr

/-- C159: an arc accepted by continuous validation is free at all its parameters. -/
theorem C159_arc {prog : Bool} {pairs : List (CarPair ι W)} (hp : ∀ c ∈ pairs, c.Ok) {fuel : Nat} {rev : Bool} {K : CC (ι → ℝ) W} (hK : Arc K) {vp : CC (ι → ℝ) W} {rep : Option ℝ}
    (h : checkArc prog pairs fuel rev K = .ok (true, vp, rep)) : vp = K ∧ rep = none ∧ ∀ t, K.t0 ≤ t → t ≤ K.t1 → CarFree pairs (K.eval t) := by
  obtain ⟨-, -, hu⟩ := carPairs hp hK
  have key : ∀ r : Bool × CC (ι → ℝ) W × Option ℝ × Nat, (r.1, r.2.1, r.2.2.1) = (true, vp, rep) → r = (true, vp, rep, r.2.2.2) := by
    rintro ⟨a, b, c, d⟩ h
    simp only [Prod.mk.injEq] at h
    obtain ⟨rfl, rfl, rfl⟩ := h
    rfl
  have fin : (∀ u, K.t0 ≤ u → u ≤ K.t1 → ∀ c ∈ pairs.map (·.cfg K), PairFree c u) → ∀ t, K.t0 ≤ t → t ≤ K.t1 → CarFree pairs (K.eval t) := by
    intro hf t h1 h2 c hc o ho
    exact hf t h1 h2 (c.cfg K) (List.mem_map.2 ⟨c, hc, rfl⟩) _ (List.mem_map.2 ⟨o, ho, rfl⟩)
  unfold checkArc at h
  cases prog with
  | true =>
    simp only [if_true] at h
    cases hr : progressive ccOps (cvQuery (fun _ => true) K.t0 K.t1) (startPairs (pairs.map (·.cfg K))) rev fuel K with
    | error e => rw [hr] at h; simp [Except.map] at h
    | ok r =>
      rw [hr] at h
      simp only [Except.map, Except.ok.injEq] at h
      rw [key r h] at hr
      obtain ⟨g1, g2, g3⟩ := C31_valid ccOps _ _ rev fuel K hK.le _ _ (uniQueryOK (fun _ => true) _ _ _ _ _) (uniStart _ _ _ _ _ hu) vp rep _ hr
      exact ⟨g1, g2, fin g3⟩
  | false =>
    simp only [Bool.false_eq_true, if_false] at h
    cases hr : dichotomy ccOps (cvQuery (fun _ => true) K.t0 K.t1) (startPairs (pairs.map (·.cfg K))) rev fuel K with
    | error e => rw [hr] at h; simp [Except.map] at h
    | ok r =>
      rw [hr] at h
      simp only [Except.map, Except.ok.injEq] at h
      rw [key r h] at hr
      obtain ⟨g1, g2, g3⟩ := C32_valid ccOps _ _ rev fuel K hK.le _ _ (uniQueryOK (fun _ => true) _ _ _ _ _) (uniStart _ _ _ _ _ hu) vp rep _ hr
      exact ⟨g1, g2, fin g3⟩

/-- C159: of an arc that is refused, the part returned is free too, unless it is a single configuration. -/
theorem C159_arc_part {prog : Bool} {pairs : List (CarPair ι W)} (hp : ∀ c ∈ pairs, c.Ok) {fuel : Nat} {rev : Bool} {K : CC (ι → ℝ) W} (hK : Arc K) {vp : CC (ι → ℝ) W} {rep : Option ℝ}
    (h : checkArc prog pairs fuel rev K = .ok (false, vp, rep)) :
    ∃ a b, K.t0 ≤ a ∧ a ≤ b ∧ b ≤ K.t1 ∧ vp = K.extract a b ∧ (if rev then b = K.t1 else a = K.t0) ∧ (a = b ∨ ∀ t, a ≤ t → t ≤ b → CarFree pairs (K.eval t)) ∧
      ∃ t ∈ rep, K.t0 ≤ t ∧ t ≤ K.t1 := by
  obtain ⟨-, -, hu⟩ := carPairs hp hK
  have key : ∀ r : Bool × CC (ι → ℝ) W × Option ℝ × Nat, (r.1, r.2.1, r.2.2.1) = (false, vp, rep) → r = (false, vp, rep, r.2.2.2) := by
    rintro ⟨a, b, c, d⟩ h
    simp only [Prod.mk.injEq] at h
    obtain ⟨rfl, rfl, rfl⟩ := h
    rfl
  have fin : ∀ t, (∀ c ∈ pairs.map (·.cfg K), PairFree c t) → CarFree pairs (K.eval t) := by
    intro t hf c hc o ho
    exact hf (c.cfg K) (List.mem_map.2 ⟨c, hc, rfl⟩) _ (List.mem_map.2 ⟨o, ho, rfl⟩)
  unfold checkArc at h
  cases prog with
  | true =>
    simp only [if_true] at h
    cases hr : progressive ccOps (cvQuery (fun _ => true) K.t0 K.t1) (startPairs (pairs.map (·.cfg K))) rev fuel K with
    | error e => rw [hr] at h; simp [Except.map] at h
    | ok r =>
      rw [hr] at h
      simp only [Except.map, Except.ok.injEq] at h
      rw [key r h] at hr
      obtain ⟨tf, tl, g1, g2, g3, -, g5⟩ := C31_fail ccOps _ _ rev fuel K hK.le _ _ (uniQueryOK (fun _ => true) _ _ _ _ _) (uniStart _ _ _ _ _ hu) vp rep _ hr
      cases rev with
      | true =>
        simp only [if_true] at g5 ⊢
        obtain ⟨e, l1, l2, f⟩ := g5
        refine ⟨tl, K.t1, g2.trans l1, l2, le_rfl, (Except.ok.inj e).symm, rfl, ?_, tf, g1, g2, g3⟩
        rcases f with f | f
        · exact Or.inl f.2
        · exact Or.inr fun t h1 h2 => fin t (f t (l1.trans h1) h2)
      | false =>
        simp only [Bool.false_eq_true, if_false] at g5 ⊢
        obtain ⟨e, l1, l2, f⟩ := g5
        refine ⟨K.t0, tl, le_rfl, l1, l2.trans g3, (Except.ok.inj e).symm, rfl, ?_, tf, g1, g2, g3⟩
        rcases f with f | f
        · exact Or.inl f.2.symm
        · exact Or.inr fun t h1 h2 => fin t (f t h1 (h2.trans l2))
  | false =>
    simp only [Bool.false_eq_true, if_false] at h
    cases hr : dichotomy ccOps (cvQuery (fun _ => true) K.t0 K.t1) (startPairs (pairs.map (·.cfg K))) rev fuel K with
    | error e => rw [hr] at h; simp [Except.map] at h
    | ok r =>
      rw [hr] at h
      simp only [Except.map, Except.ok.injEq] at h
      rw [key r h] at hr
      obtain ⟨tf, tl, g1, g2, g3, -, g5⟩ := C32_fail ccOps _ _ rev fuel K hK.le _ _ (uniQueryOK (fun _ => true) _ _ _ _ _) (uniStart _ _ _ _ _ hu) vp rep _ hr
      cases rev with
      | true =>
        simp only [if_true] at g5 ⊢
        obtain ⟨e, f⟩ := g5
        rcases f with ⟨f1, f2⟩ | ⟨f1, f2, f3⟩
        · exact ⟨tl, K.t1, by rw [f2]; exact hK.le, f2.le, le_rfl, (Except.ok.inj e).symm, rfl, Or.inl f2, tf, g1, g2, g3⟩
        · exact ⟨tl, K.t1, g2.trans f1.le, f2, le_rfl, (Except.ok.inj e).symm, rfl, Or.inr fun t h1 h2 => fin t (f3 t h1 h2), tf, g1, g2, g3⟩
      | false =>
        simp only [Bool.false_eq_true, if_false] at g5 ⊢
        obtain ⟨e, f⟩ := g5
        rcases f with ⟨f1, f2⟩ | ⟨f1, f2, f3⟩
        · exact ⟨K.t0, tl, le_rfl, f2.ge, by rw [f2]; exact hK.le, (Except.ok.inj e).symm, rfl, Or.inl f2.symm, tf, g1, g2, g3⟩
        · exact ⟨K.t0, tl, le_rfl, f1, f2.le.trans g3, (Except.ok.inj e).symm, rfl, Or.inr fun t h1 h2 => fin t (f3 t h1 h2), tf, g1, g2, g3⟩

/-- C159: an arc that is refused is in collision, according to the collision library, at the parameter of the report. -/
theorem C159_refused {prog : Bool} {pairs : List (CarPair ι W)} (hp : ∀ c ∈ pairs, c.Ok) {fuel : Nat} {rev : Bool} {K : CC (ι → ℝ) W} (hK : Arc K) {vp : CC (ι → ℝ) W} {rep : Option ℝ}
    (h : checkArc prog pairs fuel rev K = .ok (false, vp, rep)) : ∃ t ∈ rep, K.t0 ≤ t ∧ t ≤ K.t1 ∧ ∃ c ∈ pairs, ∃ o ∈ c.objs, o.collide (K.eval t) = none := by
  obtain ⟨-, -, hu⟩ := carPairs hp hK
  have key : ∀ r : Bool × CC (ι → ℝ) W × Option ℝ × Nat, (r.1, r.2.1, r.2.2.1) = (false, vp, rep) → r = (false, vp, rep, r.2.2.2) := by
    rintro ⟨a, b, c, d⟩ h
    simp only [Prod.mk.injEq] at h
    obtain ⟨rfl, rfl, rfl⟩ := h
    rfl
  have fin : ∀ t s W δ, UniInv K.t0 K.t1 W δ (pairs.map (·.cfg K)) s → cvQuery (fun _ => true) K.t0 K.t1 s t = none → ∃ c ∈ pairs, ∃ o ∈ c.objs, o.collide (K.eval t) = none := by
    intro t s W δ hs hq
    obtain ⟨v, hv, o, ho, hn⟩ := cvQuery_none hq
    obtain ⟨c, hc, e⟩ := List.mem_map.1 (hs.1.mem_iff.1 (List.mem_map.2 ⟨v, hv, rfl⟩))
    rw [← e] at ho
    obtain ⟨o', ho', rfl⟩ := List.mem_map.1 ho
    exact ⟨c, hc, o', ho', hn⟩
  unfold checkArc at h
  cases prog with
  | true =>
    simp only [if_true] at h
    cases hr : progressive ccOps (cvQuery (fun _ => true) K.t0 K.t1) (startPairs (pairs.map (·.cfg K))) rev fuel K with
    | error e => rw [hr] at h; simp [Except.map] at h
    | ok r =>
      rw [hr] at h
      simp only [Except.map, Except.ok.injEq] at h
      rw [key r h] at hr
      obtain ⟨tf, tl, g1, g2, g3, ⟨s, g4, g5⟩, -⟩ := C31_fail ccOps _ _ rev fuel K hK.le _ _ (uniQueryOK (fun _ => true) _ _ _ _ _) (uniStart _ _ _ _ _ hu) vp rep _ hr
      exact ⟨tf, g1, g2, g3, fin tf s _ _ g4 g5⟩
  | false =>
    simp only [Bool.false_eq_true, if_false] at h
    cases hr : dichotomy ccOps (cvQuery (fun _ => true) K.t0 K.t1) (startPairs (pairs.map (·.cfg K))) rev fuel K with
    | error e => rw [hr] at h; simp [Except.map] at h
    | ok r =>
      rw [hr] at h
      simp only [Except.map, Except.ok.injEq] at h
      rw [key r h] at hr
      obtain ⟨tf, tl, g1, g2, g3, ⟨s, g4, g5⟩, -⟩ := C32_fail ccOps _ _ rev fuel K hK.le _ _ (uniQueryOK (fun _ => true) _ _ _ _ _) (uniStart _ _ _ _ _ hu) vp rep _ hr
      exact ⟨tf, g1, g2, g3, fin tf s _ _ g4 g5⟩

/-- Enough iterations. -/
noncomputable def arcFuel (pairs : List (CarPair ι W)) (K : CC (ι → ℝ) W) : Nat := ⌈(K.t1 - K.t0) / (2 * lowTol pairs / topVel pairs K)⌉₊ + 3

/-- C159: the validation of an arc ends. -/
theorem C159_arc_ends (prog : Bool) {pairs : List (CarPair ι W)} (hp : ∀ c ∈ pairs, c.Ok) (rev : Bool) {K : CC (ι → ℝ) W} (hK : Arc K) :
    ∃ r, checkArc prog pairs (arcFuel pairs K) rev K = .ok r := by
  obtain ⟨v1, v2, hu⟩ := carPairs hp hK
  have hδ : 0 < 2 * lowTol pairs / topVel pairs K := by positivity
  have hceil := Nat.le_ceil ((K.t1 - K.t0) / (2 * lowTol pairs / topVel pairs K))
  rw [div_le_iff₀ hδ] at hceil
  unfold checkArc
  cases prog with
  | true =>
    obtain ⟨v, vp, rep, n, h, -⟩ := C159_progressive_ends ccOps (fun _ => true) rev (arcFuel pairs K) _ K hK.le _ _ _ hδ hu hceil le_rfl (fun a b => ⟨_, rfl⟩)
    have h' : progressive ccOps (cvQuery (fun _ => true) K.t0 K.t1) (startPairs (pairs.map (·.cfg K))) rev (arcFuel pairs K) K = .ok (v, vp, rep, n) := h
    simp only [if_true, h', Except.map]
    exact ⟨_, rfl⟩
  | false =>
    obtain ⟨v, vp, rep, n, h, -⟩ := C159_dichotomy_ends ccOps (fun _ => true) rev (⌈(K.t1 - K.t0) / (2 * lowTol pairs / topVel pairs K)⌉₊ + 2) K hK.le _ _ _ hδ hu
      (by
        show K.t1 - K.t0 < _
        push_cast
        rw [add_mul]
        linarith) (fun a b => ⟨_, rfl⟩)
    have h' : dichotomy ccOps (cvQuery (fun _ => true) K.t0 K.t1) (startPairs (pairs.map (·.cfg K))) rev (arcFuel pairs K) K = .ok (v, vp, rep, n) := h
    simp only [Bool.false_eq_true, if_false, h', Except.map]
    exact ⟨_, rfl⟩

/-! ## Vectors of arcs -/

/-- `ContinuousValidation::validate` on a vector of arcs, as built by the steering methods of cars: continuous-validation.cc:150-206. -/
noncomputable def checkArcs (prog : Bool) (pairs : List (CarPair ι W)) (v : Vec ℝ (Cfg (ι → ℝ) W) (CC (ι → ℝ) W)) : Except Err (Ans ℝ (Vec ℝ (Cfg (ι → ℝ) W) (CC (ι → ℝ) W))) :=
  validateVec ccOps (fun rev K => checkArc prog pairs (arcFuel pairs K) rev K) false v

/-- All the configurations of a vector of free arcs are free. -/
theorem vec_free {pairs : List (CarPair ι W)} {v : Vec ℝ (Cfg (ι → ℝ) W) (CC (ι → ℝ) W)} (hc : v.cons = none) (hne : v.paths ≠ [])
    (hl : ∀ K ∈ v.paths, K.t0 ≤ K.t1) (hf : ∀ K ∈ v.paths, ∀ t, K.t0 ≤ t → t ≤ K.t1 → CarFree pairs (K.eval t)) {s : ℝ} (h0 : 0 ≤ s) (h1 : s ≤ total ccOps v.paths) :
    ∃ q, evalV ccOps v s = .ok q ∧ CarFree pairs q := by
  obtain ⟨i, p, x, -, k2, k3, k4, -, -, k5⟩ := C19_eval ccOps v hne hl s h0 h1
  rw [hc] at k5
  exact ⟨p.eval x, k5, hf p (List.mem_of_getElem? k2) x k3 k4⟩

/-- C159: the validation of a vector of arcs ends; if the vector is accepted, every configuration of it is free. -/
theorem C159_vector (prog : Bool) {pairs : List (CarPair ι W)} (hp : ∀ c ∈ pairs, c.Ok) {v : Vec ℝ (Cfg (ι → ℝ) W) (CC (ι → ℝ) W)} (hc : v.cons = none) (hv : ∀ K ∈ v.paths, Arc K) :
    ∃ r, checkArcs prog pairs v = .ok r ∧ (r.1 = true → r.2.2 = none ∧ r.2.1.paths = v.paths ∧
      (v.paths ≠ [] → ∀ s, 0 ≤ s → s ≤ total ccOps v.paths → ∃ q, evalV ccOps v s = .ok q ∧ CarFree pairs q)) := by
  obtain ⟨r, hr, hiff⟩ := C33_forward ccOps (fun rev K => checkArc prog pairs (arcFuel pairs K) rev K) v v.paths (pieces_none ccOps v hc)
    (fun p h => C159_arc_ends prog hp false (hv p h))
  refine ⟨r, hr, fun ht => ?_⟩
  rcases C33_part ccOps _ v v.paths (pieces_none ccOps v hc) r hr with ⟨-, h2, h3, -⟩ | ⟨h, -⟩
  · refine ⟨h2, h3, fun hne s h0 h1 => vec_free hc hne (fun K h => (hv K h).le) (fun K h => ?_) h0 h1⟩
    obtain ⟨vp, rep, e⟩ := hiff.1 ht K h
    exact (C159_arc hp (hv K h) e).2.2
  · rw [h] at ht; exact absurd ht (by simp)

/-- Extracted arcs are arcs. -/
theorem Arc.extract {K : CC E W} (hK : Arc K) {a b : ℝ} (ha : K.t0 ≤ a) (hab : a ≤ b) (hb : b ≤ K.t1) : Arc (K.extract a b) ∧ (K.extract a b).t0 = 0 ∧ (K.extract a b).t1 = b - a ∧
    ∀ s, 0 ≤ s → s ≤ b - a → (K.extract a b).eval s = K.eval (a + s) := by
  rcases hK.le.eq_or_lt with h | h
  · have e1 : a = K.t0 := by linarith
    have e2 : b = K.t0 := by linarith
    have e3 : b = a := by linarith
    have hb0 : K.bound K.t0 = K.init := by simp [CC.bound]
    have hx : K.extract a b = { K with init := K.init, fin := K.init, curveLength := 0, t0 := 0, t1 := 0, forward := -1 } := by
      unfold CC.extract
      simp [e1, e2, hb0, ← h]
    have ev : ∀ s, (K.extract a b).eval s = K.eval (a + 0) := by
      intro s
      rw [hx]
      have r2 : K.ratio (a + 0) = 0 := by simp [CC.ratio, ← h]
      unfold CC.eval
      rw [r2]
      simp [CC.ratio, lerp]
    refine ⟨⟨by rw [hx], by rw [hx]; exact hK.unit, ⟨by rw [hx], ?_⟩⟩, by rw [hx], by rw [hx]; simp [e1, e2], ?_⟩
    · rw [ev]
      rw [hx]
      have := eval_start K
      rw [add_zero, e1, this]
      exact ⟨rfl, rfl⟩
    · intro s h0 h1
      have : s = 0 := by linarith
      rw [ev, this]
  · obtain ⟨g1, g2, g3, g4⟩ := C85_extract hK.coherent h a b
    have hba : |b - a| = b - a := abs_of_nonneg (by linarith)
    rw [hba] at g3 g4
    refine ⟨⟨g1.range, ?_, g1⟩, g2, g3, fun s h0 h1 => by rw [g4 s h0 h1, if_pos hab]⟩
    have e : (K.extract a b).init = K.bound a := rfl
    rw [e]
    unfold CC.bound
    split
    · exact hK.unit
    · split
      · have := hK.coherent.fin.1
        have h2 : (⟨K.fin.c, K.fin.s⟩ : ℂ) = ⟨(K.eval K.t1).c, (K.eval K.t1).s⟩ := congrArg Prod.snd this
        rw [Complex.mk.injEq] at h2
        rw [h2.1, h2.2]
        exact C85_heading K hK.unit _
      · exact C85_heading K hK.unit a

/-- C159: of a vector that is refused, the part returned is an initial part (C33), and its arcs are free, the last one unless it is a single configuration. -/
theorem C159_vector_part (prog : Bool) {pairs : List (CarPair ι W)} (hp : ∀ c ∈ pairs, c.Ok) {v : Vec ℝ (Cfg (ι → ℝ) W) (CC (ι → ℝ) W)} (hc : v.cons = none) (hv : ∀ K ∈ v.paths, Arc K)
    {r : Ans ℝ (Vec ℝ (Cfg (ι → ℝ) W) (CC (ι → ℝ) W))} (hr : checkArcs prog pairs v = .ok r) (hf : r.1 = false) :
    ∃ A K B L, v.paths = A ++ K :: B ∧ r.2.1.paths = A ++ [L] ∧ (∃ x, K.t0 ≤ x ∧ x ≤ K.t1 ∧ L = K.extract K.t0 x) ∧ Arc L ∧
      (∀ k ∈ A, ∀ t, k.t0 ≤ t → t ≤ k.t1 → CarFree pairs (k.eval t)) ∧ (L.t0 = L.t1 ∨ ∀ t, L.t0 ≤ t → t ≤ L.t1 → CarFree pairs (L.eval t)) := by
  rcases C33_part ccOps _ v v.paths (pieces_none ccOps v hc) r hr with ⟨h, -⟩ | ⟨-, A, K, B, L, rep, e1, e2, e3, e4, -, -⟩
  · rw [h] at hf; exact absurd hf (by simp)
  · have hK : Arc K := hv K (by rw [e1]; simp)
    obtain ⟨a, b, k1, k2, k3, k4, k5, k6, -⟩ := C159_arc_part hp hK e3
    simp only [Bool.false_eq_true, if_false] at k5
    subst k5
    obtain ⟨x1, x2, x3, x4⟩ := hK.extract k1 k2 k3
    refine ⟨A, K, B, L, e1, e4, ⟨b, k2, k3, k4⟩, by rw [k4]; exact x1, fun k hk t h1 h2 => ?_, ?_⟩
    · obtain ⟨vp, rep', e⟩ := e2 k hk
      exact (C159_arc hp (hv k (by rw [e1]; simp [hk])) e).2.2 t h1 h2
    · rw [k4, x2, x3]
      rcases k6 with h | h
      · left; linarith
      · right
        intro t h1 h2
        rw [x4 t h1 h2]
        exact h _ (by linarith) (by linarith)

/-! ## A car in front of a wall -/

namespace Demo

/-- A disc of radius 1 that drives below the line `y = 5`. -/
noncomputable def wall : CarPair (Fin 0) Unit where
  objs := [⟨fun q => 4 - q.y, fun q => if 0 < 4 - q.y then some (4 - q.y) else none⟩]
  coef := ⟨true, 1, 0, fun _ => 0⟩
  coefR := none
  tol := 1 / 100

theorem wall_ok : wall.Ok := by
  exact {
    tol := by norm_num [wall]
    lower := by
      intro o ho q d hd
      simp only [wall, List.mem_singleton] at ho
      subst ho
      simp only at hd ⊢
      split at hd
      · rename_i h
        obtain rfl := Option.some.inj hd
        exact ⟨h, le_rfl⟩
      · simp at hd
    coef := by
      intro o ho
      simp only [wall, List.mem_singleton] at ho
      subst ho
      refine ⟨fun j => j.elim0, 1, 0, zero_le_one, le_rfl, by simp [wall], fun a b _ => ?_⟩
      have : |(a.pose.1 - b.pose.1).im| ≤ ‖a.pose.1 - b.pose.1‖ := Complex.abs_im_le_norm _
      simp only [Cfg.pose, Complex.sub_im] at this
      simp only [zero_mul, one_mul, add_zero, Finset.univ_eq_empty, Finset.sum_empty, Cfg.pose]
      rw [show 4 - a.y - (4 - b.y) = -(a.y - b.y) by ring, abs_neg]
      exact this
    coefR := by intro o ho r hr; simp [wall] at hr
    nonneg := ⟨by norm_num [wall], by norm_num [wall], fun j => j.elim0, by simp [wall]⟩ }

/-- A quarter of turn, then a line. -/
noncomputable def arc1 : CC (Fin 0 → ℝ) Unit := CC.create ⟨0, 0, 1, 0, 0, ()⟩ ⟨0, 0, 1, 0, 0, ()⟩ 1 1 1 ()

theorem arc1_arc : Arc arc1 :=
  ⟨by simp [arc1, CC.create], by simp [arc1, CC.create], (C85_create _ _ _ _ _ _).1⟩

/-- The arc is accepted: it does not reach the wall. -/
theorem arc1_accepted (prog rev : Bool) : ∃ vp rep, checkArc prog [wall] (arcFuel [wall] arc1) rev arc1 = .ok (true, vp, rep) := by
  have hp : ∀ c ∈ [wall], c.Ok := by simpa using wall_ok
  obtain ⟨⟨b, vp, rep⟩, h⟩ := C159_arc_ends prog hp rev arc1_arc
  cases b with
  | true => exact ⟨vp, rep, h⟩
  | false =>
    obtain ⟨t, -, h0, h1, c, hc, o, ho, hn⟩ := C159_refused hp arc1_arc h
    simp only [List.mem_singleton] at hc
    subst hc
    simp only [wall, List.mem_singleton] at ho
    subst ho
    have hy : (arc1.eval t).y ≤ 2 := by
      have := Real.neg_one_le_cos (arc1.curvature * (arc1.ratio t * arc1.curveLength))
      have e : (arc1.eval t).y = 1 - Real.cos (arc1.curvature * (arc1.ratio t * arc1.curveLength)) := by
        simp [CC.eval, arc1, CC.create]
      rw [e]; linarith
    simp only at hn
    rw [if_pos (by linarith)] at hn
    simp at hn

/-- The assumptions hold of a robot, an obstacle and a path that turns. -/
example : (∀ c ∈ [wall], c.Ok) ∧ Arc arc1 ∧ arc1.curvature = 1 ∧ arc1.t0 < arc1.t1 :=
  ⟨by simpa using wall_ok, arc1_arc, rfl, by simp [arc1, CC.create]⟩

end Demo

end Verif.Car
