import Verif.SplineOpt.LoopCost
import Verif.SplineOpt.Steering
import Mathlib.Analysis.InnerProductSpace.PiL2
import Mathlib.Analysis.Normed.Affine.Isometry
set_option linter.unusedSectionVars false

/-!
# Collision constraints of `SplineGradientBased` (C129)

Model of `CollisionFunction`: src/path-optimization/spline-gradient-based/collision-constraint.hh, and of the way `SplineGradientBased` builds, updates and
linearizes one (spline-gradient-based.cc:111-154, 310-367), with configurations in a vector space and without explicit constraints (`sod.es` is empty; see `Explicit.lean` for them).

External: forward kinematics, collision detection, and the functions `Position` and `RelativePosition` of hpp-constraints (documented as the position of the
center of the second frame expressed in the first one), of which only the jacobian is read.
-/
namespace Verif.SplineOpt.CF
open Verif.Spline Verif.SplineOpt

noncomputable section

abbrev E3 := EuclideanSpace ℝ (Fin 3)
abbrev Conf := ℕ → ℝ
/-- Positions of joints (`Transform3s`). -/
abbrev Rigid := E3 ≃ᵃⁱ[ℝ] E3

variable {ι : Type}

/-- What is external.  `fk j q`: position of joint `j` in configuration `q`; `joint o`: joint of object `o`, `none` if it has none or if this is the universe (index 0);
`jac j1 j2 x1 x2 q d`: column `d` of the jacobian of `RelativePosition` (`Position` if `j1` is `none`) of frames centered at `x1` and `x2`;
`contact o1 o2 q`: contact found by `checkCollision` (at most one is requested): collision-constraint.hh:128-146. -/
structure Scene (ι : Type) where
  m : ℕ
  fk : ι → Conf → Rigid
  joint : ℕ → Option ι
  jac : Option ι → ι → E3 → E3 → Conf → ℕ → E3
  contact : ℕ → ℕ → Conf → Option E3

/-- `null`: a null joint is dereferenced; `logic`: `std::logic_error`; `abort`: call to `abort ()`. -/
inductive Er | null | logic | abort
  deriving DecidableEq

/-- Data of a `CollisionFunction`: collision-constraint.hh:73, 224-229. -/
structure Fn where
  qFree : Conf
  qColl : Conf
  o1 : ℕ
  o2 : ℕ
  contact : E3
  J : ℕ → ℝ

/-- `normalized ()` of Eigen, which leaves the null vector. -/
def normalized (x : E3) : E3 := ‖x‖⁻¹ • x

/-- The vector `u`: collision-constraint.hh:163-203.  `c` is the contact point. -/
def dir (S : Scene ι) (j1 : Option ι) (j2 : ι) (qFree qColl : Conf) (c : E3) : E3 :=
  let x2 := (S.fk j2 qColl).symm c
  match j1 with
  | some j =>
    let x1 := (S.fk j qColl).symm c
    normalized ((S.fk j2 qFree).symm (S.fk j qFree x1) - x2)
  | none => normalized (S.fk j2 qFree x2 - x2)

/-- The center of the frame of the first object: collision-constraint.hh:174, 192. -/
def center (S : Scene ι) (j1 : Option ι) (qColl : Conf) (c : E3) : E3 :=
  match j1 with
  | some j => (S.fk j qColl).symm c
  | none => c

/-- `computeJacobian`: collision-constraint.hh:148-209. -/
def computeJacobian (S : Scene ι) (f : Fn) : Except Er Fn :=
  let f := if S.joint f.o2 = none then { f with o1 := f.o2, o2 := f.o1 } else f
  match S.joint f.o2 with
  | none => .error .null
  | some j2 =>
    let j1 := S.joint f.o1
    let u := dir S j1 j2 f.qFree f.qColl f.contact
    .ok { f with J := fun d => inner ℝ u (S.jac j1 j2 (center S j1 f.qColl f.contact) ((S.fk j2 f.qColl).symm f.contact) f.qFree d) }

/-- A report of path validation: parameter, and for collision reports the objects and the contacts. -/
structure Report where
  parameter : ℝ
  coll : Option (ℕ × ℕ × List E3)

/-- Constructor: collision-constraint.hh:76-126; `J_` is empty before `computeJacobian`. -/
def create (S : Scene ι) (free coll : VSpl) (r : Report) : Except Er Fn :=
  match r.coll with
  | none => .error .logic
  | some (o1, o2, cs) =>
    let tFree := min (r.parameter * (free.s1 - free.s0) / (coll.s1 - coll.s0)) (free.s1 - free.s0)
    match cs with
    | [] => .error .abort
    | c :: _ => computeJacobian S ⟨free.compute integ tFree, coll.compute integ r.parameter, o1, o2, c, fun _ => 0⟩

/-- `impl_compute`: collision-constraint.hh:211-217; `difference (q, qFree)` is `q - qFree`. -/
def value (S : Scene ι) (f : Fn) (q : Conf) : ℝ := ∑ d ∈ Finset.range S.m, f.J d * (q d - f.qFree d)

/-- `updateConstraint`: collision-constraint.hh:59-71. -/
def update (S : Scene ι) (f : Fn) (q : Conf) : Except Er Fn :=
  match S.contact f.o1 f.o2 q with
  | some c => computeJacobian S { f with qColl := q, contact := c }
  | none => computeJacobian S { f with qFree := q }

/-- The configuration in the middle: spline-gradient-based.cc:356-357. -/
def middle (f : Fn) : Conf := fun d => f.qFree d + (1 / 2) * (f.qColl d - f.qFree d)

/-- `k` turns of the loop of `findNewConstraint`: spline-gradient-based.cc:344-365. -/
def updates (S : Scene ι) : ℕ → Fn → Except Er Fn
  | 0, f => .ok f
  | k + 1, f =>
    match update S f (middle f) with
    | .error e => .error e
    | .ok f => updates S k f

/-! ## Specification -/

/-- Position of the second frame in the first one. -/
def posVal (S : Scene ι) (j1 : Option ι) (j2 : ι) (x1 x2 : E3) (q : Conf) : E3 :=
  match j1 with
  | some j => (S.fk j q).symm (S.fk j2 q x2) - x1
  | none => S.fk j2 q x2 - x1

/-- Error made on the position at `q'` when using the jacobian at `q`. -/
def linErr (S : Scene ι) (j1 : Option ι) (j2 : ι) (x1 x2 : E3) (q q' : Conf) : E3 :=
  posVal S j1 j2 x1 x2 q' - posVal S j1 j2 x1 x2 q - ∑ d ∈ Finset.range S.m, (q' d - q d) • S.jac j1 j2 x1 x2 q d

/-- Displacement, between the collision configuration and the free one, of the points in contact: position of the point of the second body with respect to
the one of the first body (to the obstacle) in the free configuration. -/
def sep (S : Scene ι) (f : Fn) (j2 : ι) : E3 :=
  posVal S (S.joint f.o1) j2 (center S (S.joint f.o1) f.qColl f.contact) ((S.fk j2 f.qColl).symm f.contact) f.qFree

/-- Linearization error of the constraint. -/
def err (S : Scene ι) (f : Fn) (j2 : ι) : E3 :=
  linErr S (S.joint f.o1) j2 (center S (S.joint f.o1) f.qColl f.contact) ((S.fk j2 f.qColl).symm f.contact) f.qFree f.qColl

/-- The jacobian of a function is the one that `computeJacobian` computes. -/
def Computed (S : Scene ι) (f : Fn) (j2 : ι) : Prop :=
  S.joint f.o2 = some j2 ∧ ∀ d, f.J d = inner ℝ (dir S (S.joint f.o1) j2 f.qFree f.qColl f.contact)
    (S.jac (S.joint f.o1) j2 (center S (S.joint f.o1) f.qColl f.contact) ((S.fk j2 f.qColl).symm f.contact) f.qFree d)

/-! ## Lemmas -/

theorem computed {S : Scene ι} {f g : Fn} (h : computeJacobian S f = .ok g) :
    (∃ j2, Computed S g j2) ∧ g.qFree = f.qFree ∧ g.qColl = f.qColl ∧ g.contact = f.contact ∧
      ((g.o1 = f.o1 ∧ g.o2 = f.o2) ∨ (g.o1 = f.o2 ∧ g.o2 = f.o1)) := by
  unfold computeJacobian at h
  by_cases hj : S.joint f.o2 = none
  · simp only [hj, if_true] at h
    cases h1 : S.joint f.o1 with
    | none => simp [h1] at h
    | some j2 =>
      simp only [h1, Except.ok.injEq] at h
      subst h
      exact ⟨⟨j2, by simpa using h1, fun d => by simp [hj]⟩, rfl, rfl, rfl, Or.inr ⟨rfl, rfl⟩⟩
  · obtain ⟨j2, h2⟩ := Option.ne_none_iff_exists'.1 hj
    simp only [h2, reduceCtorEq, if_false, Except.ok.injEq] at h
    subst h
    exact ⟨⟨j2, by simpa using h2, fun d => rfl⟩, rfl, rfl, rfl, Or.inl ⟨rfl, rfl⟩⟩

theorem posVal_coll (S : Scene ι) (f : Fn) (j2 : ι) :
    posVal S (S.joint f.o1) j2 (center S (S.joint f.o1) f.qColl f.contact) ((S.fk j2 f.qColl).symm f.contact) f.qColl = 0 := by
  cases h : S.joint f.o1 <;> simp [posVal, center]

theorem value_coll {S : Scene ι} {f : Fn} {j2 : ι} (h : Computed S f j2) :
    value S f f.qColl = -inner ℝ (dir S (S.joint f.o1) j2 f.qFree f.qColl f.contact) (sep S f j2 + err S f j2) := by
  have e : sep S f j2 + err S f j2 =
      -∑ d ∈ Finset.range S.m, (f.qColl d - f.qFree d) •
        S.jac (S.joint f.o1) j2 (center S (S.joint f.o1) f.qColl f.contact) ((S.fk j2 f.qColl).symm f.contact) f.qFree d := by
    unfold sep err linErr
    rw [posVal_coll]
    abel
  rw [e, inner_neg_right, neg_neg, inner_sum]
  unfold value
  refine Finset.sum_congr rfl fun d _ => ?_
  rw [h.2 d, inner_smul_right, mul_comm]

theorem norm_normalized {x : E3} (h : x ≠ 0) : ‖normalized x‖ = 1 := by
  unfold normalized
  rw [norm_smul, norm_inv, norm_norm, inv_mul_cancel₀ (norm_ne_zero_iff.2 h)]

theorem norm_normalized_le (x : E3) : ‖normalized x‖ ≤ 1 := by
  by_cases h : x = 0
  · simp [h, normalized]
  · exact (norm_normalized h).le

theorem inner_normalized (x : E3) : inner ℝ (normalized x) x = ‖x‖ := by
  unfold normalized
  rw [real_inner_smul_left, real_inner_self_eq_norm_mul_norm]
  by_cases h : ‖x‖ = 0
  · simp [h]
  · field_simp

theorem norm_dir_le (S : Scene ι) (j1 : Option ι) (j2 : ι) (q q' : Conf) (c : E3) : ‖dir S j1 j2 q q' c‖ ≤ 1 := by
  cases j1 <;> exact norm_normalized_le _

theorem sub_lin (M : Rigid) (x y : E3) : M.linearIsometryEquiv (x - y) = M x - M y := M.map_vsub x y

/-- The direction used and the displacement, in the world frame. -/
theorem moving_frames (S : Scene ι) (f : Fn) {j1 : ι} (h : S.joint f.o1 = some j1) (j2 : ι) :
    ∃ w, dir S (S.joint f.o1) j2 f.qFree f.qColl f.contact = normalized w ∧
      (S.fk j2 f.qFree).linearIsometryEquiv w = -(S.fk j1 f.qFree).linearIsometryEquiv (sep S f j2) := by
  refine ⟨_, by rw [h]; rfl, ?_⟩
  unfold sep
  rw [h]
  simp only [posVal, center]
  rw [sub_lin, sub_lin, AffineIsometryEquiv.apply_symm_apply, AffineIsometryEquiv.apply_symm_apply]
  abel

theorem value_sub (S : Scene ι) (f : Fn) (q q' : Conf) : value S f q - value S f q' = ∑ d ∈ Finset.range S.m, f.J d * (q d - q' d) := by
  unfold value
  rw [← Finset.sum_sub_distrib]
  exact Finset.sum_congr rfl fun d _ => by ring

/-- Configurations of the segment. -/
def seg (q q' : Conf) (t : ℝ) : Conf := fun d => q d + t * (q' d - q d)

/-! ## C129 -/

/-- C129: the function of a collision constraint vanishes at the free configuration, and its jacobian is exact. -/
theorem C129_free (S : Scene ι) (f : Fn) : value S f f.qFree = 0 ∧
    ∀ q v : Conf, value S f (fun d => q d + v d) = value S f q + ∑ d ∈ Finset.range S.m, f.J d * v d := by
  constructor
  · simp [value]
  · intro q v
    unfold value
    rw [← Finset.sum_add_distrib]
    exact Finset.sum_congr rfl fun d _ => by ring

/-- C129: collision between two moving bodies: the collision configuration does not satisfy the constraint if the displacement of the contact point, seen from
each body, is not turned too much between both frames. -/
theorem C129_moving_partial {S : Scene ι} {f g : Fn} (h : computeJacobian S f = .ok g) {j1 j2 : ι} (h1 : S.joint g.o1 = some j1) (h2 : S.joint g.o2 = some j2)
    (hs : ‖sep S g j2‖ * ‖err S g j2‖ <
      |inner ℝ ((S.fk j1 g.qFree).linearIsometryEquiv (sep S g j2)) ((S.fk j2 g.qFree).linearIsometryEquiv (sep S g j2))|) :
    value S g g.qColl ≠ 0 := by
  obtain ⟨⟨j, hc⟩, -⟩ := computed h
  obtain rfl : j = j2 := Option.some.inj (hc.1.symm.trans h2)
  rw [value_coll hc]
  obtain ⟨w, e1, e2⟩ := moving_frames S g h1 j
  have hw : ‖w‖ = ‖sep S g j‖ := by
    rw [← LinearIsometryEquiv.norm_map (S.fk j g.qFree).linearIsometryEquiv w, e2, norm_neg, LinearIsometryEquiv.norm_map]
  rw [← LinearIsometryEquiv.inner_map_map (S.fk j g.qFree).linearIsometryEquiv, e1]
  have hw' : (S.fk j g.qFree).linearIsometryEquiv (normalized w) = -(‖sep S g j‖⁻¹ • (S.fk j1 g.qFree).linearIsometryEquiv (sep S g j)) := by
    unfold normalized
    rw [map_smul, e2, hw, smul_neg]
  rw [hw', map_add, inner_add_right, inner_neg_left, inner_neg_left, real_inner_smul_left, real_inner_smul_left]
  have hp : 0 < ‖sep S g j‖ := by
    rcases (norm_nonneg (sep S g j)).eq_or_lt with h0 | h0
    · rw [← h0] at hs
      have : sep S g j = 0 := norm_eq_zero.1 h0.symm
      rw [this] at hs
      simp at hs
    · exact h0
  have hb := abs_real_inner_le_norm ((S.fk j1 g.qFree).linearIsometryEquiv (sep S g j)) ((S.fk j g.qFree).linearIsometryEquiv (err S g j))
  rw [LinearIsometryEquiv.norm_map, LinearIsometryEquiv.norm_map] at hb
  intro h0
  have h3 : ‖sep S g j‖⁻¹ * (inner ℝ ((S.fk j1 g.qFree).linearIsometryEquiv (sep S g j)) ((S.fk j g.qFree).linearIsometryEquiv (sep S g j)) +
      inner ℝ ((S.fk j1 g.qFree).linearIsometryEquiv (sep S g j)) ((S.fk j g.qFree).linearIsometryEquiv (err S g j))) = 0 := by linarith
  rcases mul_eq_zero.1 h3 with h4 | h4
  · exact absurd h4 (inv_ne_zero hp.ne')
  · rw [eq_neg_of_add_eq_zero_left h4, abs_neg] at hs
    exact absurd (hs.trans_le hb) (lt_irrefl _)

/-- C129: when both joints have the same orientation (joints in translation), the value at the collision configuration is the length of the displacement, up to the
linearization error. -/
theorem C129_parallel_partial {S : Scene ι} {f g : Fn} (h : computeJacobian S f = .ok g) {j1 j2 : ι} (h1 : S.joint g.o1 = some j1) (h2 : S.joint g.o2 = some j2)
    (hp : (S.fk j1 g.qFree).linearIsometryEquiv = (S.fk j2 g.qFree).linearIsometryEquiv) :
    |value S g g.qColl - ‖sep S g j2‖| ≤ ‖err S g j2‖ := by
  obtain ⟨⟨j, hc⟩, -⟩ := computed h
  obtain rfl : j = j2 := Option.some.inj (hc.1.symm.trans h2)
  rw [value_coll hc]
  obtain ⟨w, e1, e2⟩ := moving_frames S g h1 j
  have hw : w = -sep S g j := by
    rw [hp, ← map_neg] at e2
    exact (S.fk j g.qFree).linearIsometryEquiv.injective e2
  rw [inner_add_right]
  have hn : -inner ℝ (dir S (S.joint g.o1) j g.qFree g.qColl g.contact) (sep S g j) = ‖sep S g j‖ := by
    rw [e1, hw, ← inner_neg_right, inner_normalized, norm_neg]
  have hb := abs_real_inner_le_norm (dir S (S.joint g.o1) j g.qFree g.qColl g.contact) (err S g j)
  have hd := mul_le_mul_of_nonneg_right (norm_dir_le S (S.joint g.o1) j g.qFree g.qColl g.contact) (norm_nonneg (err S g j))
  rw [show -(inner ℝ (dir S (S.joint g.o1) j g.qFree g.qColl g.contact) (sep S g j) + inner ℝ (dir S (S.joint g.o1) j g.qFree g.qColl g.contact) (err S g j)) -
    ‖sep S g j‖ = -inner ℝ (dir S (S.joint g.o1) j g.qFree g.qColl g.contact) (err S g j) by linarith, abs_neg]
  linarith

/-- C129: collision with a fixed obstacle: the collision configuration does not satisfy the constraint if the displacement of the contact point is not orthogonal to
the difference between the coordinates of this point in the world and in the joint (up to the linearization error). -/
theorem C129_obstacle_partial {S : Scene ι} {f g : Fn} (h : computeJacobian S f = .ok g) {j2 : ι} (h1 : S.joint g.o1 = none) (h2 : S.joint g.o2 = some j2)
    (hs : let x2 := (S.fk j2 g.qColl).symm g.contact
      ‖S.fk j2 g.qFree x2 - x2‖ * ‖err S g j2‖ < |inner ℝ (S.fk j2 g.qFree x2 - x2) (S.fk j2 g.qFree x2 - g.contact)|) :
    value S g g.qColl ≠ 0 := by
  obtain ⟨⟨j, hc⟩, -⟩ := computed h
  obtain rfl : j = j2 := Option.some.inj (hc.1.symm.trans h2)
  rw [value_coll hc]
  have hsep : sep S g j = S.fk j g.qFree ((S.fk j g.qColl).symm g.contact) - g.contact := by simp [sep, h1, posVal, center]
  simp only [← hsep] at hs
  have hd : dir S (S.joint g.o1) j g.qFree g.qColl g.contact =
      normalized (S.fk j g.qFree ((S.fk j g.qColl).symm g.contact) - (S.fk j g.qColl).symm g.contact) := by rw [h1]; rfl
  rw [hd]
  generalize S.fk j g.qFree ((S.fk j g.qColl).symm g.contact) - (S.fk j g.qColl).symm g.contact = w at hs
  have hw : 0 < ‖w‖ := by
    rcases (norm_nonneg w).eq_or_lt with h0 | h0
    · rw [norm_eq_zero.1 h0.symm] at hs
      simp at hs
    · exact h0
  unfold normalized
  rw [inner_add_right, real_inner_smul_left, real_inner_smul_left]
  have hb := abs_real_inner_le_norm w (err S g j)
  intro h0
  have h3 : ‖w‖⁻¹ * (inner ℝ w (sep S g j) + inner ℝ w (err S g j)) = 0 := by linarith
  rcases mul_eq_zero.1 h3 with h4 | h4
  · exact absurd h4 (inv_ne_zero hw.ne')
  · rw [eq_neg_of_add_eq_zero_left h4, abs_neg] at hs
    exact absurd (hs.trans_le hb) (lt_irrefl _)

/-- C129: whatever the number of updates, the constraint is built from a configuration without collision and a configuration in collision of the initial segment, the former
being closer to the initial free configuration, at a distance halved by each update. -/
theorem C129_updates {S : Scene ι} (hsym : ∀ a b q, (S.contact a b q).isSome = (S.contact b a q).isSome) : ∀ (k : ℕ) {f g : Fn},
    (S.contact f.o1 f.o2 f.qColl).isSome = true → (S.contact f.o1 f.o2 f.qFree).isSome = false → updates S k f = .ok g →
    (S.contact f.o1 f.o2 g.qColl).isSome = true ∧ (S.contact f.o1 f.o2 g.qFree).isSome = false ∧
      ((g.o1 = f.o1 ∧ g.o2 = f.o2) ∨ (g.o1 = f.o2 ∧ g.o2 = f.o1)) ∧
      ∃ a b : ℝ, 0 ≤ a ∧ b ≤ 1 ∧ b - a = (1 / 2) ^ k ∧ g.qFree = seg f.qFree f.qColl a ∧ g.qColl = seg f.qFree f.qColl b := by
  intro k
  induction k with
  | zero =>
    intro f g hc hf h
    obtain rfl : f = g := by simpa [updates] using h
    exact ⟨hc, hf, Or.inl ⟨rfl, rfl⟩, 0, 1, le_rfl, le_rfl, by norm_num, by funext d; simp [seg], by funext d; simp [seg]⟩
  | succ k ih =>
    intro f g hc hf h
    rw [updates] at h
    split at h
    · exact absurd h (by simp)
    · rename_i f' hu
      unfold update at hu
      have comb : ∀ {f1 : Fn}, f1.o1 = f.o1 → f1.o2 = f.o2 → computeJacobian S f1 = .ok f' → (S.contact f.o1 f.o2 f1.qColl).isSome = true →
          (S.contact f.o1 f.o2 f1.qFree).isSome = false → ∀ a0 b0 : ℝ, 0 ≤ a0 → b0 ≤ 1 → b0 - a0 = 1 / 2 → f1.qFree = seg f.qFree f.qColl a0 →
          f1.qColl = seg f.qFree f.qColl b0 → (S.contact f.o1 f.o2 g.qColl).isSome = true ∧ (S.contact f.o1 f.o2 g.qFree).isSome = false ∧
          ((g.o1 = f.o1 ∧ g.o2 = f.o2) ∨ (g.o1 = f.o2 ∧ g.o2 = f.o1)) ∧
          ∃ a b : ℝ, 0 ≤ a ∧ b ≤ 1 ∧ b - a = (1 / 2) ^ (k + 1) ∧ g.qFree = seg f.qFree f.qColl a ∧ g.qColl = seg f.qFree f.qColl b := by
        intro f1 ho1 ho2 hJ hc1 hf1 a0 b0 ha0 hb0 hab e1 e2
        obtain ⟨-, e3, e4, -, ho⟩ := computed hJ
        have key : ∀ q, (S.contact f'.o1 f'.o2 q).isSome = (S.contact f.o1 f.o2 q).isSome := by
          intro q
          rcases ho with ⟨o1, o2⟩ | ⟨o1, o2⟩
          · rw [o1, o2, ho1, ho2]
          · rw [o1, o2, ho1, ho2, hsym]
        obtain ⟨r1, r2, r3, a, b, ra, rb, rab, q1, q2⟩ := ih (by rw [key, e4]; exact hc1) (by rw [key, e3]; exact hf1) h
        rw [key] at r1 r2
        refine ⟨r1, r2, ?_, a0 + a * (b0 - a0), a0 + b * (b0 - a0), ?_, ?_, ?_, ?_, ?_⟩
        · rw [ho1, ho2] at ho
          rcases ho with ⟨o1, o2⟩ | ⟨o1, o2⟩ <;> rcases r3 with ⟨p1, p2⟩ | ⟨p1, p2⟩ <;> rw [p1, p2, o1, o2] <;> simp
        · rw [hab]; linarith
        · rw [hab]; linarith
        · rw [hab, pow_succ, ← rab]; ring
        · rw [q1, e3, e4, e1, e2]; funext d; simp only [seg]; ring
        · rw [q2, e3, e4, e1, e2]; funext d; simp only [seg]; ring
      split at hu
      · rename_i c hm
        exact comb (f1 := { f with qColl := middle f, contact := c }) rfl rfl hu (by simp [hm]) hf 0 (1 / 2) le_rfl (by norm_num) (by norm_num)
          (by funext d; simp [seg]) (by funext d; simp [seg, middle])
      · rename_i hm
        exact comb (f1 := { f with qFree := middle f }) rfl rfl hu hc (by simp [hm]) (1 / 2) 1 (by norm_num) le_rfl (by norm_num)
          (by funext d; simp [seg, middle]) (by funext d; simp [seg])

theorem sum_map_range (n : ℕ) (h : ℕ → ℝ) : ((List.range n).map h).sum = ∑ i ∈ Finset.range n, h i := by
  induction n with
  | zero => simp
  | succ n ih => rw [List.range_succ, List.map_append, List.sum_append, ih, Finset.sum_range_succ]; simp

/-- The configuration of a spline at a ratio in [0,1]. -/
def point (s : VSpl) (u : ℝ) : Conf := integ s.base (s.velocity u)

/-- The row of a linearized collision constraint is satisfied by the splines on which the function takes the same value, at the same ratio, as on the spline it
was linearized at. -/
theorem C129_row (S : Scene ι) (f : Fn) {nb : ℕ} {s t : VSpl} {j : ℕ} {ratio : ℝ} {splines : List VSpl} (hj : splines[j]? = some t) (hl : Like s t) (hn : s.n + 1 = nb) :
    (linRow S.m nb s j ratio f.J).Holds (concat S.m nb splines) ↔ value S f (point t ratio) = value S f (point s ratio) := by
  have key : ∀ w : VSpl, s.base = w.base → s.n = w.n →
      ∑ i ∈ Finset.range nb, ∑ d ∈ Finset.range S.m, basis s.n 0 ratio i * f.J d * w.P i d =
        value S f (point w ratio) - ∑ d ∈ Finset.range S.m, f.J d * (s.base d - f.qFree d) := by
    intro w hb hw
    unfold value point integ Spl.velocity
    rw [Finset.sum_comm, ← Finset.sum_sub_distrib]
    refine Finset.sum_congr rfl fun d _ => ?_
    rw [hb, ← hw, hn, ← mul_sub, show w.base d + ∑ i ∈ Finset.range nb, w.P i d * basis s.n 0 ratio i - f.qFree d - (w.base d - f.qFree d) =
      ∑ i ∈ Finset.range nb, w.P i d * basis s.n 0 ratio i by ring, Finset.mul_sum]
    exact Finset.sum_congr rfl fun i _ => by ring
  have kt := key t hl.2.1 hl.1
  have ks := key s rfl rfl
  have L : ∀ {Y : List VSpl} {w : VSpl}, Y[j]? = some w → dot (linRow S.m nb s j ratio f.J).J (concat S.m nb Y) =
      ∑ i ∈ Finset.range nb, ∑ d ∈ Finset.range S.m, basis s.n 0 ratio i * f.J d * w.P i d := by
    intro Y w hY
    unfold linRow dot
    simp only [List.map_map]
    rw [sum_flatMap_range]
    refine Finset.sum_congr rfl fun i hi => ?_
    rw [List.map_map, sum_map_range]
    refine Finset.sum_congr rfl fun d hd => ?_
    show basis s.n 0 ratio i * f.J d * concat S.m nb Y (j * (S.m * nb) + (i * S.m + d)) = _
    rw [concat_at hY (Finset.mem_range.1 hi) (Finset.mem_range.1 hd)]
  have hr : (List.replicate (j + 1) s)[j]? = some s := by simp
  have R : (linRow S.m nb s j ratio f.J).b = _ := ((linRow_holds (m := S.m) (nb := nb) hr ratio f.J).symm.trans (L hr))
  unfold Row.Holds
  rw [L hj, R, kt, ks]
  constructor <;> intro h <;> linarith

theorem create_points {S : Scene ι} {s s' : VSpl} {r : Report} {f : Fn} (h : create S s s' r = .ok f) (hl : s.s0 = 0 ∧ s'.s0 = 0) (hp : 0 < s.s1 ∧ 0 < s'.s1)
    (hr : 0 ≤ r.parameter ∧ r.parameter ≤ s'.s1) : f.qFree = point s (r.parameter / (s'.s1 - s'.s0)) ∧ f.qColl = point s' (r.parameter / (s'.s1 - s'.s0)) ∧
      ∃ a b c cs, r.coll = some (a, b, c :: cs) ∧ f.contact = c ∧ ((f.o1 = a ∧ f.o2 = b) ∨ (f.o1 = b ∧ f.o2 = a)) := by
  unfold create at h
  split at h
  · simp at h
  · rename_i o1 o2 cs hc
    split at h
    · simp at h
    · rename_i c l
      obtain ⟨-, e1, e2, e3, e4⟩ := computed h
      refine ⟨?_, ?_, o1, o2, c, l, hc, e3, e4⟩
      · rw [e1]
        simp only [hl.1, hl.2, sub_zero]
        unfold Spl.compute point
        have hq : r.parameter / s'.s1 ≤ 1 := (div_le_one hp.2).2 hr.2
        have h0 : 0 ≤ r.parameter / s'.s1 := div_nonneg hr.1 hp.2.le
        rw [min_eq_left (by rw [mul_div_right_comm]; nlinarith [hp.1])]
        congr 2
        unfold Spl.param
        simp only [hl.1, sub_zero]
        rw [if_neg hp.1.ne', show r.parameter * s.s1 / s'.s1 / s.s1 = r.parameter / s'.s1 by field_simp [hp.1.ne', hp.2.ne'], if_neg (not_lt.2 h0), if_neg (not_lt.2 hq)]
      · rw [e2]
        simp only [hl.2, sub_zero]
        unfold Spl.compute point
        have hq : r.parameter / s'.s1 ≤ 1 := (div_le_one hp.2).2 hr.2
        have h0 : 0 ≤ r.parameter / s'.s1 := div_nonneg hr.1 hp.2.le
        congr 2
        unfold Spl.param
        simp only [hl.2, sub_zero]
        rw [if_neg hp.2.ne', if_neg (not_lt.2 h0), if_neg (not_lt.2 hq)]

theorem value_seg (S : Scene ι) (f : Fn) (q q' : Conf) (a b : ℝ) :
    value S f (seg q q' b) - value S f (seg q q' a) = (b - a) * (value S f q' - value S f q) := by
  rw [value_sub, value_sub, Finset.mul_sum]
  exact Finset.sum_congr rfl fun d _ => by simp only [seg]; ring

/-- C129: what a collision constraint excludes.  `s` is a spline of the current path, `s'` the one of the path in collision; after any number of updates, if the value of the
function at its own collision configuration is not zero, then the splines that satisfy the constraint do not pass, at the same ratio, by the configuration of the
collision which was reported. -/
theorem C129_excluded_partial {S : Scene ι} (hsym : ∀ a b q, (S.contact a b q).isSome = (S.contact b a q).isSome) {s s' : VSpl} {r : Report} {f g : Fn} (k : ℕ)
    (h : create S s s' r = .ok f) (hl : s.s0 = 0 ∧ s'.s0 = 0) (hp : 0 < s.s1 ∧ 0 < s'.s1) (hr : 0 ≤ r.parameter ∧ r.parameter ≤ s'.s1)
    (hc : (S.contact f.o1 f.o2 f.qColl).isSome = true) (hf : (S.contact f.o1 f.o2 f.qFree).isSome = false)
    (hu : updates S k f = .ok g) (hv : value S g g.qColl ≠ 0) {nb j : ℕ} (hn : s.n + 1 = nb) {splines : List VSpl} {t : VSpl}
    (hj : splines[j]? = some t) (ht : Like s t) (hsat : (linRow S.m nb s j (r.parameter / (s'.s1 - s'.s0)) g.J).Holds (concat S.m nb splines)) :
    point t (r.parameter / (s'.s1 - s'.s0)) ≠ point s' (r.parameter / (s'.s1 - s'.s0)) := by
  obtain ⟨e1, e2, -⟩ := create_points h hl hp hr
  obtain ⟨-, -, -, a, b, ha, hb, hab, q1, q2⟩ := C129_updates hsym k hc hf hu
  have hrow := (C129_row S g hj ht hn).1 hsat
  rw [← e1] at hrow
  rw [← e2]
  intro he
  rw [he] at hrow
  have hs := value_seg S g f.qFree f.qColl a b
  rw [← q1, ← q2, (C129_free S g).1, hrow] at hs
  simp at hs
  exact hv hs

/-- C129: a constraint is built exactly when the report describes a collision, with a contact, of which one object at least moves. -/
theorem C129_total (S : Scene ι) (s s' : VSpl) (r : Report) : (∃ f, create S s s' r = .ok f) ↔
    ∃ a b c cs, r.coll = some (a, b, c :: cs) ∧ (S.joint a ≠ none ∨ S.joint b ≠ none) := by
  constructor
  · rintro ⟨f, h⟩
    unfold create at h
    split at h
    · simp at h
    · rename_i o1 o2 cs hc
      split at h
      · simp at h
      · rename_i c l
        refine ⟨o1, o2, c, l, hc, ?_⟩
        obtain ⟨⟨j, hj, -⟩, -, -, -, ho⟩ := computed h
        rcases ho with ⟨-, e⟩ | ⟨-, e⟩
        · right; rw [show S.joint o2 = some j by simpa [e] using hj]; simp
        · left; rw [show S.joint o1 = some j by simpa [e] using hj]; simp
  · rintro ⟨a, b, c, cs, hc, h⟩
    simp only [create, hc, computeJacobian]
    by_cases hb : S.joint b = none
    · have ha := h.resolve_right (fun h => h hb)
      obtain ⟨j, hj⟩ := Option.ne_none_iff_exists'.1 ha
      simp only [hb, if_true, hj]
      exact ⟨_, rfl⟩
    · obtain ⟨j, hj⟩ := Option.ne_none_iff_exists'.1 hb
      simp only [hj, reduceCtorEq, if_false]
      exact ⟨_, rfl⟩

/-! ## The world frame -/

/-- The same scene, seen from another world frame. -/
def Scene.moved (S : Scene ι) (g : Rigid) : Scene ι where
  m := S.m
  fk j q := (S.fk j q).trans g
  joint := S.joint
  jac j1 j2 x1 x2 q d :=
    match j1 with
    | some j => S.jac (some j) j2 x1 x2 q d
    | none => g.linearIsometryEquiv (S.jac none j2 (g.symm x1) x2 q d)
  contact a b q := (S.contact a b q).map g

theorem symm_trans_apply (M g : Rigid) (x : E3) : (M.trans g).symm (g x) = M.symm x := by
  rw [AffineIsometryEquiv.symm_apply_eq]
  simp

/-- C129: for collisions between moving bodies, the constraint does not depend on the world frame. -/
theorem C129_frame_moving_partial (S : Scene ι) (g : Rigid) (f : Fn) {j1 j2 : ι} (h1 : S.joint f.o1 = some j1) (h2 : S.joint f.o2 = some j2) :
    ∃ f1 f2, computeJacobian S f = .ok f1 ∧ computeJacobian (S.moved g) { f with contact := g f.contact } = .ok f2 ∧ f1.J = f2.J ∧
      ∀ q, value S f1 q = value (S.moved g) f2 q := by
  have e : ∀ (j : ι) (q : Conf), ((S.moved g).fk j q).symm (g f.contact) = (S.fk j q).symm f.contact := fun j q => symm_trans_apply _ _ _
  have e' : ∀ (j k : ι) (q : Conf) (x : E3), ((S.moved g).fk j q).symm ((S.moved g).fk k q x) = (S.fk j q).symm (S.fk k q x) := fun j k q x => symm_trans_apply _ _ _
  have hm : ∀ o, (S.moved g).joint o = S.joint o := fun _ => rfl
  have hJ : ∀ a b x y q d, (S.moved g).jac (some a) b x y q d = S.jac (some a) b x y q d := fun _ _ _ _ _ _ => rfl
  unfold computeJacobian
  simp only [hm, h1, h2, reduceCtorEq, if_false]
  refine ⟨_, _, rfl, rfl, ?_, ?_⟩
  · funext d
    simp only [dir, center, e, e', hJ]
  · intro q
    unfold value
    simp only [dir, center, e, e', hJ]
    rfl

/-! ## Examples -/

/-- Position of a joint with three translations. -/
def vec (q : Conf) : E3 := !₂[q 0, q 1, q 2]

/-- Basis of the space. -/
def ax (d : ℕ) : E3 := !₂[if d = 0 then 1 else 0, if d = 1 then 1 else 0, if d = 2 then 1 else 0]

theorem sum_ax (v : ℕ → ℝ) : ∑ d ∈ Finset.range 3, v d • ax d = vec v := by
  ext i
  fin_cases i <;> simp [Finset.sum_range_succ, ax, vec]

/-- A point with three translations (object 0), and a ball (object 1) that does not move. -/
def ball (c : E3) : Scene Unit where
  m := 3
  fk _ q := AffineIsometryEquiv.constVAdd ℝ E3 (vec q)
  joint o := if o = 0 then some () else none
  jac _ _ _ _ _ d := ax d
  contact _ _ q := open Classical in if ‖vec q - c‖ ≤ 1 then some (vec q) else none

theorem ball_exact (c : E3) (x1 x2 : E3) (q q' : Conf) : linErr (ball c) none () x1 x2 q q' = 0 := by
  have : ∑ d ∈ Finset.range (ball c).m, (q' d - q d) • (ball c).jac none () x1 x2 q d = vec q' - vec q := by
    show ∑ d ∈ Finset.range 3, (q' d - q d) • ax d = _
    rw [sum_ax]
    ext i
    fin_cases i <;> simp [vec]
  unfold linErr
  rw [this]
  simp [posVal, ball]

def qF : Conf := fun d => if d = 1 then 1 else 0
def qC : Conf := fun d => if d = 0 then 5 else if d = 1 then 1 else 0

theorem ball_value {S : Scene Unit} {w : E3} (hm : S.m = 3) (hk : ∀ q x, S.fk () q x = w + vec q + x) (h0 : S.joint 0 = some ()) (h1 : S.joint 1 = none)
    (hJ : ∀ x1 x2 q d, S.jac none () x1 x2 q d = ax d) : ∃ f, computeJacobian S ⟨qF, qC, 0, 1, w + vec qC, fun _ => 0⟩ = .ok f ∧
    f.qFree = qF ∧ f.qColl = qC ∧ f.o1 = 1 ∧ f.o2 = 0 ∧ value S f qC = 5 * (‖w + vec qF‖⁻¹ * w 0) := by
  unfold computeJacobian
  simp only [h0, h1, if_true]
  refine ⟨_, rfl, rfl, rfl, rfl, rfl, ?_⟩
  unfold value
  have e : (S.fk () qC).symm (w + vec qC) = 0 := by
    rw [AffineIsometryEquiv.symm_apply_eq, hk, add_zero]
  simp only [dir, e, hk, hJ, hm, add_zero, sub_zero, normalized]
  simp [Finset.sum_range_succ, qC, qF, ax, PiLp.inner_apply, Fin.sum_univ_three, vec]
  ring

theorem ball_contact : (ball (vec qC)).contact 0 1 qC = some (vec qC) ∧ (ball (vec qC)).contact 0 1 qF = none := by
  constructor
  · simp [ball]
  · simp only [ball]
    rw [if_neg]
    rw [EuclideanSpace.norm_eq, Fin.sum_univ_three]
    simp [vec, qC, qF]

/-- C129, counterexample: a point with three translations collides with an obstacle, the jacobian is exact, and the configuration in collision satisfies the constraint
built to exclude it (and so does the path in collision, see `C129_row`). -/
theorem C129_obstacle_counterexample : ∃ (S : Scene Unit) (f0 f : Fn), (∀ j1 x1 x2 q q', S.joint f.o1 = j1 → linErr S j1 () x1 x2 q q' = 0) ∧
    S.contact f0.o1 f0.o2 f0.qColl = some f0.contact ∧ S.contact f0.o1 f0.o2 f0.qFree = none ∧ computeJacobian S f0 = .ok f ∧
    sep S f () ≠ 0 ∧ value S f f0.qColl = 0 := by
  obtain ⟨f, h, e1, e2, e3, e4, hv⟩ := ball_value (S := ball (vec qC)) (w := 0) rfl (fun q x => by simp [ball]) rfl rfl (fun _ _ _ _ => rfl)
  have hz : (0 : E3) + vec qC = vec qC := zero_add _
  rw [hz] at h
  have hv : value (ball (vec qC)) f qC = 0 := by rw [hv]; simp
  refine ⟨ball (vec qC), ⟨qF, qC, 0, 1, vec qC, fun _ => 0⟩, f, ?_, ball_contact.1, ball_contact.2, h, ?_, hv⟩
  · intro j1 x1 x2 q q' hj
    obtain rfl : none = j1 := by rw [e3] at hj; exact hj
    exact ball_exact _ _ _ _ _
  · unfold sep
    have hj : (ball (vec qC)).joint f.o1 = none := by rw [e3]; rfl
    obtain ⟨-, -, -, e5, -⟩ := computed h
    have k : ((ball (vec qC)).fk () qC).symm (vec qC) = 0 := by
      rw [AffineIsometryEquiv.symm_apply_eq]
      simp [ball]
    rw [hj, e1, e2, e5]
    simp only [posVal, center, k]
    intro h0
    have := congrFun (congrArg (fun v : E3 => (v : Fin 3 → ℝ)) h0) 0
    simp [ball, vec, qC, qF] at this

/-- C129, counterexample: the spline in collision satisfies the linear constraint which was added because of this collision: nothing prevents the quadratic program from
having the same solution again. -/
theorem C129_row_counterexample : ∃ (S : Scene Unit) (s s' : VSpl) (r : Report) (f : Fn), Like s s' ∧ s.n = 1 ∧ create S s s' r = .ok f ∧
    S.contact 0 1 (s'.compute integ r.parameter) ≠ none ∧ (∀ t, S.contact 0 1 (s.compute integ t) = none) ∧
    (linRow S.m 2 s 0 (r.parameter / (s'.s1 - s'.s0)) f.J).Holds (concat S.m 2 [s']) := by
  obtain ⟨f, h, e1, e2, e3, e4, hv⟩ := ball_value (S := ball (vec qC)) (w := 0) rfl (fun q x => by simp [ball]) rfl rfl (fun _ _ _ _ => rfl)
  rw [zero_add] at h
  have hb : ∀ (t : ℝ), (⟨1, qF, fun _ _ => 0, 0, 1⟩ : VSpl).compute integ t = qF := by
    intro t
    funext d
    simp [Spl.compute, integ, Spl.velocity]
  have hp : ∀ (u : ℝ), point (⟨1, qF, fun _ d => qC d - qF d, 0, 1⟩ : VSpl) u = qC := by
    intro u
    funext d
    have hs := sum_basis 1 0 u
    rw [if_pos rfl] at hs
    simp only [point, integ, Spl.velocity]
    rw [← Finset.mul_sum, hs]
    ring
  have hb' : ∀ (t : ℝ), (⟨1, qF, fun _ d => qC d - qF d, 0, 1⟩ : VSpl).compute integ t = qC := fun t => hp _
  refine ⟨ball (vec qC), ⟨1, qF, fun _ _ => 0, 0, 1⟩, ⟨1, qF, fun _ d => qC d - qF d, 0, 1⟩, ⟨1 / 2, some (0, 1, [vec qC])⟩, f, ⟨rfl, rfl, rfl, rfl⟩, rfl, ?_, ?_, ?_, ?_⟩
  · simp only [create, hb, hb']
    exact h
  · rw [hb', ball_contact.1]; simp
  · intro t
    rw [hb, ball_contact.2]
  · refine (C129_row (ball (vec qC)) f (nb := 2) (s := ⟨1, qF, fun _ _ => 0, 0, 1⟩) (t := ⟨1, qF, fun _ d => qC d - qF d, 0, 1⟩) (j := 0) (splines := [⟨1, qF, fun _ d => qC d - qF d, 0, 1⟩]) rfl ⟨rfl, rfl, rfl, rfl⟩ rfl).2 ?_
    rw [hp, hv]
    have : point (⟨1, qF, fun _ _ => 0, 0, 1⟩ : VSpl) ((1 / 2) / (1 - 0)) = f.qFree := by
      rw [e1]
      funext d
      simp [point, integ, Spl.velocity]
    rw [this, (C129_free _ f).1]
    simp

/-- C129, counterexample: whether a collision with an obstacle is excluded depends on the world frame. -/
theorem C129_frame_counterexample : ∃ (S : Scene Unit) (g : Rigid) (f0 f1 f2 : Fn), computeJacobian S f0 = .ok f1 ∧
    computeJacobian (S.moved g) { f0 with contact := g f0.contact } = .ok f2 ∧ value S f1 f0.qColl = 0 ∧ value (S.moved g) f2 f0.qColl ≠ 0 := by
  obtain ⟨f1, h1, -, -, -, -, hv1⟩ := ball_value (S := ball (vec qC)) (w := 0) rfl (fun q x => by simp [ball]) rfl rfl (fun _ _ _ _ => rfl)
  obtain ⟨f2, h2, -, -, -, -, hv2⟩ := ball_value (S := (ball (vec qC)).moved (AffineIsometryEquiv.constVAdd ℝ E3 (ax 0))) (w := ax 0) rfl
    (fun q x => by simp [Scene.moved, ball, add_assoc]) rfl rfl (fun x1 x2 q d => by
      have : (AffineIsometryEquiv.constVAdd ℝ E3 (ax 0)).linearIsometryEquiv (ax d) = ax d := by
        have := sub_lin (AffineIsometryEquiv.constVAdd ℝ E3 (ax 0)) (ax d) 0
        simpa using this
      exact this)
  refine ⟨ball (vec qC), AffineIsometryEquiv.constVAdd ℝ E3 (ax 0), _, f1, f2, h1, ?_, by simpa using hv1, ?_⟩
  · simpa using h2
  · rw [show (⟨qF, qC, 0, 1, 0 + vec qC, fun _ => 0⟩ : Fn).qColl = qC from rfl, hv2]
    refine mul_ne_zero (by norm_num) (mul_ne_zero (inv_ne_zero (norm_ne_zero_iff.2 fun h0 => ?_)) (by simp [ax]))
    have := congrFun (congrArg (fun v : E3 => (v : Fin 3 → ℝ)) h0) 0
    simp [vec, ax, qF] at this

/-- Two moving bodies: a point with three translations (object 0), a ball (object 1) on a joint of orientation `R` which moves along the third axis. -/
def two (R : E3 ≃ₗᵢ[ℝ] E3) : Scene Bool where
  m := 4
  fk j q := if j then R.toAffineIsometryEquiv.trans (AffineIsometryEquiv.constVAdd ℝ E3 (q 3 • ax 2)) else AffineIsometryEquiv.constVAdd ℝ E3 (vec q)
  joint o := if o = 0 then some false else if o = 1 then some true else none
  jac _ _ _ _ _ d := if d = 3 then ax 2 else -ax d
  contact _ _ q := open Classical in if ‖vec q - q 3 • ax 2‖ ≤ 1 then some (vec q) else none

theorem two_exact (R : E3 ≃ₗᵢ[ℝ] E3) (x1 x2 : E3) (q q' : Conf) : linErr (two R) (some false) true x1 x2 q q' = 0 := by
  have : ∑ d ∈ Finset.range (two R).m, (q' d - q d) • (two R).jac (some false) true x1 x2 q d = (q' 3 - q 3) • ax 2 - (vec q' - vec q) := by
    show ∑ d ∈ Finset.range 4, (q' d - q d) • (if d = 3 then ax 2 else -ax d) = _
    rw [Finset.sum_range_succ, if_pos rfl, Finset.sum_congr rfl (g := fun d => -((q' d - q d) • ax d)), Finset.sum_neg_distrib, sum_ax]
    · rw [show vec (fun d => q' d - q d) = vec q' - vec q by ext i; fin_cases i <;> simp [vec]]
      abel
    · intro d hd
      rw [if_neg (by have := Finset.mem_range.1 hd; omega), smul_neg]
  unfold linErr
  rw [this]
  have e : ∀ p : Conf, posVal (two R) (some false) true x1 x2 p = p 3 • ax 2 + R x2 - vec p - x1 := by
    intro p
    have : ((two R).fk false p).symm ((two R).fk true p x2) = p 3 • ax 2 + R x2 - vec p := by
      rw [AffineIsometryEquiv.symm_apply_eq]
      simp [two]
    simp only [posVal, this]
  rw [e, e, sub_smul]
  abel

def q2 : Conf := fun d => if d = 0 then 2 else 0
def q0 : Conf := fun _ => 0

theorem two_contact (R : E3 ≃ₗᵢ[ℝ] E3) : (two R).contact 0 1 q0 = some (vec q0) ∧ (two R).contact 0 1 q2 = none := by
  constructor
  · have : vec q0 = 0 := by ext i; fin_cases i <;> simp [vec, q0]
    simp [two, this, q0]
  · simp only [two]
    rw [if_neg]
    rw [EuclideanSpace.norm_eq, Fin.sum_univ_three]
    simp [vec, q2]

theorem two_value (R : E3 ≃ₗᵢ[ℝ] E3) : ∃ f, computeJacobian (two R) ⟨q2, q0, 0, 1, vec q0, fun _ => 0⟩ = .ok f ∧ f.qFree = q2 ∧ f.qColl = q0 ∧ f.o1 = 0 ∧ f.o2 = 1 ∧
    f.contact = 0 ∧ value (two R) f q0 = 2 * inner ℝ (normalized (R.symm (vec q2))) (ax 0) := by
  have h0 : (two R).joint 0 = some false := rfl
  have h1 : (two R).joint 1 = some true := rfl
  have hv : vec q0 = 0 := by ext i; fin_cases i <;> simp [vec, q0]
  unfold computeJacobian
  simp only [h0, h1, reduceCtorEq, if_false]
  refine ⟨_, rfl, rfl, rfl, rfl, rfl, hv, ?_⟩
  have k0 : ∀ q, ((two R).fk true q).symm (q 3 • ax 2) = 0 := by
    intro q
    rw [AffineIsometryEquiv.symm_apply_eq]
    simp [two]
  have k1 : ((two R).fk true q0).symm 0 = 0 := by simpa [q0] using k0 q0
  have k2 : ((two R).fk false q0).symm 0 = 0 := by
    rw [AffineIsometryEquiv.symm_apply_eq]
    simp [two, hv]
  have k3 : ((two R).fk true q2).symm ((two R).fk false q2 0) = R.symm (vec q2) := by
    rw [AffineIsometryEquiv.symm_apply_eq]
    simp [two, q2]
  simp only [value, dir, hv, k1, k2, k3, sub_zero]
  show ∑ d ∈ Finset.range 4, _ = _
  have hj : ∀ x1 x2 q d, (two R).jac (some false) true x1 x2 q d = if d = 3 then ax 2 else -ax d := fun _ _ _ _ => rfl
  simp only [hj]
  rw [Finset.sum_range_succ, Finset.sum_range_succ, Finset.sum_range_succ, Finset.sum_range_succ]
  simp [q0, q2, mul_comm]

/-- A rotation (cyclic permutation of the axes). -/
def cyc : E3 ≃ₗᵢ[ℝ] E3 := LinearIsometryEquiv.piLpCongrLeft 2 ℝ ℝ (finRotate 3)

/-- C129, counterexample: same thing for a collision between two moving bodies, when their joints do not have the same orientation. -/
theorem C129_moving_counterexample : ∃ (S : Scene Bool) (f0 f : Fn), (∀ x1 x2 q q', linErr S (some false) true x1 x2 q q' = 0) ∧
    S.joint f.o1 = some false ∧ S.joint f.o2 = some true ∧
    S.contact f0.o1 f0.o2 f0.qColl = some f0.contact ∧ S.contact f0.o1 f0.o2 f0.qFree = none ∧ computeJacobian S f0 = .ok f ∧
    value S f f0.qColl = 0 := by
  obtain ⟨f, h, e1, e2, e3, e4, e5, hv⟩ := two_value cyc
  refine ⟨two cyc, ⟨q2, q0, 0, 1, vec q0, fun _ => 0⟩, f, two_exact _, by rw [e3]; rfl, by rw [e4]; rfl, (two_contact _).1, (two_contact _).2, h, ?_⟩
  show value (two cyc) f q0 = 0
  rw [hv]
  have hc : cyc.symm (vec q2) = (2 : ℝ) • ax 2 := by
    rw [LinearIsometryEquiv.symm_apply_eq]
    ext i
    rw [cyc, LinearIsometryEquiv.piLpCongrLeft_apply]
    have e0 : (finRotate 3).symm 0 = 2 := by decide
    have e1 : (finRotate 3).symm 1 = 0 := by decide
    have e2 : (finRotate 3).symm 2 = 1 := by decide
    fin_cases i <;> simp [e0, e1, e2, vec, q2, ax, Equiv.piCongrLeft'_apply]
  have : inner ℝ (normalized (cyc.symm (vec q2))) (ax 0) = 0 := by
    rw [hc, normalized, real_inner_smul_left, real_inner_smul_left]
    simp [PiLp.inner_apply, Fin.sum_univ_three, ax]
  rw [this, mul_zero]

/-- The hypotheses of `C129_parallel_partial` and of `C129_moving_partial`. -/
example : ∃ (S : Scene Bool) (f g : Fn), computeJacobian S f = .ok g ∧ S.joint g.o1 = some false ∧ S.joint g.o2 = some true ∧
    (S.fk false g.qFree).linearIsometryEquiv = (S.fk true g.qFree).linearIsometryEquiv ∧ err S g true = 0 ∧ sep S g true ≠ 0 := by
  obtain ⟨f, h, e1, e2, e3, e4, e5, hv⟩ := two_value (LinearIsometryEquiv.refl ℝ E3)
  have hj : (two (LinearIsometryEquiv.refl ℝ E3)).joint f.o1 = some false := by rw [e3]; rfl
  have herr : err (two (LinearIsometryEquiv.refl ℝ E3)) f true = 0 := by
    unfold err
    rw [hj]
    exact two_exact _ _ _ _ _
  have hpar : ((two (LinearIsometryEquiv.refl ℝ E3)).fk false f.qFree).linearIsometryEquiv = ((two (LinearIsometryEquiv.refl ℝ E3)).fk true f.qFree).linearIsometryEquiv := by
    ext1 x
    have a := sub_lin ((two (LinearIsometryEquiv.refl ℝ E3)).fk false f.qFree) x 0
    have b := sub_lin ((two (LinearIsometryEquiv.refl ℝ E3)).fk true f.qFree) x 0
    rw [sub_zero] at a b
    rw [a, b]
    simp [two]
  refine ⟨two (LinearIsometryEquiv.refl ℝ E3), _, f, h, hj, by rw [e4]; rfl, hpar, herr, ?_⟩
  intro h0
  have hp := C129_parallel_partial h hj (by rw [e4]; rfl) hpar
  rw [herr, h0, e2, hv] at hp
  have hq : vec q2 = (2 : ℝ) • ax 0 := by ext i; fin_cases i <;> simp [vec, q2, ax]
  have hn : ‖ax 0‖ = 1 := by rw [EuclideanSpace.norm_eq, Fin.sum_univ_three]; simp [ax]
  have : inner ℝ (normalized ((LinearIsometryEquiv.refl ℝ E3).symm (vec q2))) (ax 0) = 1 := by
    rw [show (LinearIsometryEquiv.refl ℝ E3).symm (vec q2) = vec q2 from rfl, hq, normalized, norm_smul, hn, real_inner_smul_left, real_inner_smul_left,
      real_inner_self_eq_norm_mul_norm, hn]
    norm_num
  rw [this] at hp
  norm_num at hp

/-- The hypotheses of `C129_excluded_partial` and `C129_updates`. -/
example : ∃ (S : Scene Bool) (s s' : VSpl) (r : Report) (f g : Fn), (∀ a b q, (S.contact a b q).isSome = (S.contact b a q).isSome) ∧
    create S s s' r = .ok f ∧ (s.s0 = 0 ∧ s'.s0 = 0) ∧ (0 < s.s1 ∧ 0 < s'.s1) ∧ (0 ≤ r.parameter ∧ r.parameter ≤ s'.s1) ∧
    (S.contact f.o1 f.o2 f.qColl).isSome = true ∧ (S.contact f.o1 f.o2 f.qFree).isSome = false ∧ updates S 0 f = .ok g ∧ value S g g.qColl ≠ 0 ∧ s.n + 1 = 2 ∧
    (linRow S.m 2 s 0 (r.parameter / (s'.s1 - s'.s0)) g.J).Holds (concat S.m 2 [s]) := by
  obtain ⟨f, h, e1, e2, e3, e4, e5, hv⟩ := two_value (LinearIsometryEquiv.refl ℝ E3)
  have hb : ∀ (q : Conf) (t : ℝ), (⟨1, q, fun _ _ => 0, 0, 1⟩ : VSpl).compute integ t = q := by
    intro q t
    funext d
    simp [Spl.compute, integ, Spl.velocity]
  refine ⟨two (LinearIsometryEquiv.refl ℝ E3), ⟨1, q2, fun _ _ => 0, 0, 1⟩, ⟨1, q0, fun _ _ => 0, 0, 1⟩, ⟨1 / 2, some (0, 1, [vec q0])⟩, f, f, fun _ _ _ => rfl, ?_,
    ⟨rfl, rfl⟩, ⟨one_pos, one_pos⟩, ⟨by norm_num, by norm_num⟩, ?_, ?_, rfl, ?_, rfl, linRow_holds rfl _ _⟩
  · simp only [create, hb]
    exact h
  · rw [e2, e3, e4, (two_contact _).1]; rfl
  · rw [e1, e3, e4, (two_contact _).2]; rfl
  · rw [e2, hv]
    have hq : vec q2 = (2 : ℝ) • ax 0 := by ext i; fin_cases i <;> simp [vec, q2, ax]
    have hn : ‖ax 0‖ = 1 := by rw [EuclideanSpace.norm_eq, Fin.sum_univ_three]; simp [ax]
    rw [show (LinearIsometryEquiv.refl ℝ E3).symm (vec q2) = vec q2 from rfl, hq, normalized, norm_smul, hn, real_inner_smul_left, real_inner_smul_left,
      real_inner_self_eq_norm_mul_norm, hn]
    norm_num

/-- The hypotheses of `C129_obstacle_partial`: the joint of the robot is at the origin in the configuration in collision. -/
example : ∃ (S : Scene Unit) (f g : Fn), computeJacobian S f = .ok g ∧ S.joint g.o1 = none ∧ S.joint g.o2 = some () ∧
    ‖S.fk () g.qFree ((S.fk () g.qColl).symm g.contact) - (S.fk () g.qColl).symm g.contact‖ * ‖err S g ()‖ <
      |inner ℝ (S.fk () g.qFree ((S.fk () g.qColl).symm g.contact) - (S.fk () g.qColl).symm g.contact)
        (S.fk () g.qFree ((S.fk () g.qColl).symm g.contact) - g.contact)| := by
  have hv : vec q0 = 0 := by ext i; fin_cases i <;> simp [vec, q0]
  have k : ((ball 0).fk () q0).symm 0 = 0 := by
    rw [AffineIsometryEquiv.symm_apply_eq]
    simp [ball, hv]
  have k2 : (ball 0).fk () q2 0 = (2 : ℝ) • ax 0 := by
    rw [show (ball 0).fk () q2 0 = vec q2 by simp [ball]]
    ext i; fin_cases i <;> simp [vec, q2, ax]
  have hn : ‖ax 0‖ = 1 := by rw [EuclideanSpace.norm_eq, Fin.sum_univ_three]; simp [ax]
  refine ⟨ball 0, ⟨q2, q0, 1, 0, 0, fun _ => 0⟩, _, rfl, rfl, rfl, ?_⟩
  have herr : ∀ J, err (ball 0) ⟨q2, q0, 1, 0, 0, J⟩ () = 0 := fun J => ball_exact _ _ _ _ _
  simp only [show (ball 0).joint 0 = some () from rfl, reduceCtorEq, if_false, herr, k, k2, norm_zero, mul_zero, sub_zero]
  rw [real_inner_self_eq_norm_mul_norm, norm_smul, hn]
  norm_num

end

end Verif.SplineOpt.CF
