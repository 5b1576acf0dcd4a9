import Mathlib.Analysis.SpecialFunctions.Trigonometric.Deriv
import Mathlib.Analysis.SpecialFunctions.Complex.Arg
import Mathlib.Analysis.Calculus.IteratedDeriv.Lemmas
set_option linter.unusedSectionVars false

/-!
# Paths of constant curvature of a car-like robot: `steeringMethod::ConstantCurvature` (C85, C86)

A configuration is made of the position and orientation (cosine, sine) of the car, the values of the wheel joints, and the other degrees of freedom.
Simplifications: the latter are in a real vector space (`pinocchio::interpolate` is the linear interpolation of vectors; for rotations it is the geodesic); the set of wheel
joints is a single value of an arbitrary type; no time parameterization (asserted at constant-curvature.cc:382, 420).
-/
namespace Verif.Car
open Complex

/-- A configuration. -/
structure Cfg (E W : Type) where
  x : ℝ
  y : ℝ
  c : ℝ
  s : ℝ
  o : E
  wheel : W

/-- Members of `ConstantCurvature` and its time range. -/
structure CC (E W : Type) where
  init : Cfg E W
  fin : Cfg E W
  curveLength : ℝ
  curvature : ℝ
  t0 : ℝ
  t1 : ℝ
  forward : ℝ
  /-- value of the wheels: constant-curvature.cc:441-467 -/
  wv : W

variable {E W : Type} [AddCommGroup E] [Module ℝ E]

/-- Linear interpolation of the other degrees of freedom: constant-curvature.cc:206. -/
def lerp (a b : E) (u : ℝ) : E := a + u • (b - a)

/-- `u`: constant-curvature.cc:203-205. -/
noncomputable def CC.ratio (K : CC E W) (t : ℝ) : ℝ := if K.t1 - K.t0 = 0 then 0 else (t - K.t0) / (K.t1 - K.t0)

/-- `impl_compute`: constant-curvature.cc:201-234. -/
noncomputable def CC.eval (K : CC E W) (param : ℝ) : Cfg E W :=
  let u := K.ratio param
  let t := u * K.curveLength
  let x0 := K.init.x
  let y0 := K.init.y
  let c0 := K.init.c
  let s0 := K.init.s
  let c := Real.cos (K.curvature * t)
  let s := Real.sin (K.curvature * t)
  let r := 1 / K.curvature
  { x := if K.curvature = 0 then x0 + t * c0 else x0 + r * (s0 * (c - 1) + c0 * s)
    y := if K.curvature = 0 then y0 + t * s0 else y0 + r * (c0 * (1 - c) + s0 * s)
    c := c0 * c - s0 * s
    s := c0 * s + s0 * c
    o := lerp K.init.o K.fin.o u
    wheel := K.wv }

/-- `create` and the constructors: constant-curvature.cc:70-86, 116-170. -/
noncomputable def CC.create (init fin : Cfg E W) (curveLength pathLength curvature : ℝ) (wv : W) : CC E W :=
  let K : CC E W := ⟨init, fin, curveLength, curvature, 0, |pathLength|, if 0 < curveLength then 1 else -1, wv⟩
  { K with fin := K.eval K.t1 }

/-- Configuration at a bound of an extracted path: constant-curvature.cc:394-407. -/
noncomputable def CC.bound (K : CC E W) (t : ℝ) : Cfg E W := if t = K.t0 then K.init else if t = K.t1 then K.fin else K.eval t

/-- `impl_extract`: constant-curvature.cc:380-417. -/
noncomputable def CC.extract (K : CC E W) (a b : ℝ) : CC E W :=
  let L := K.t1 - K.t0
  let curveLength := if L ≠ 0 then (b - a) / L * K.curveLength else 0
  let pathLength := if L ≠ 0 then |b - a| / L * L else 0
  { K with init := K.bound a, fin := K.bound b, curveLength := curveLength, t0 := 0, t1 := pathLength, forward := if 0 < curveLength then 1 else -1 }

/-- `reverse`: constant-curvature.cc:419-430. -/
noncomputable def CC.reverse (K : CC E W) : CC E W :=
  { K with init := K.fin, fin := K.init, curveLength := -K.curveLength, t0 := 0, t1 := K.t1 - K.t0, forward := if K.curveLength < 0 then 1 else -1 }

/-! ## Specification: poses of a car that rolls -/

/-- Position and heading. -/
abbrev Pose := ℂ × ℂ

/-- `exp (i x)` -/
noncomputable def cis (x : ℝ) : ℂ := ⟨Real.cos x, Real.sin x⟩

/-- Displacement, seen from the car, of a car that rolls along a curve of length `t` and curvature `k`. -/
noncomputable def disp (k t : ℝ) : ℂ := if k = 0 then ⟨t, 0⟩ else ⟨Real.sin (k * t) / k, (1 - Real.cos (k * t)) / k⟩

/-- Motion of a pose. -/
noncomputable def move (k t : ℝ) (p : Pose) : Pose := (p.1 + p.2 * disp k t, p.2 * cis (k * t))

/-- The pose of a configuration. -/
def Cfg.pose (q : Cfg E W) : Pose := (⟨q.x, q.y⟩, ⟨q.c, q.s⟩)

theorem cis_add (x y : ℝ) : cis (x + y) = cis x * cis y := by
  unfold cis
  rw [Complex.ext_iff]
  simp [Real.cos_add, Real.sin_add]
  ring

theorem cis_zero : cis 0 = 1 := by
  unfold cis; rw [Complex.ext_iff]; simp

theorem cis_eq_exp (x : ℝ) : cis x = exp (x * I) := by
  unfold cis
  rw [Complex.ext_iff, exp_ofReal_mul_I_re, exp_ofReal_mul_I_im]
  exact ⟨rfl, rfl⟩

theorem cis_ne_zero (x : ℝ) : cis x ≠ 0 := by rw [cis_eq_exp]; exact exp_ne_zero _

theorem cis_neg (x : ℝ) : cis x * cis (-x) = 1 := by rw [← cis_add, add_neg_cancel, cis_zero]

theorem disp_zero (k : ℝ) : disp k 0 = 0 := by
  unfold disp
  split <;> (rw [Complex.ext_iff]; simp)

theorem disp_add (k a b : ℝ) : disp k (a + b) = disp k a + cis (k * a) * disp k b := by
  unfold disp
  by_cases h : k = 0
  · simp only [h, if_true, zero_mul, cis_zero, one_mul]
    rw [Complex.ext_iff]; simp
  · simp only [h, if_false, mul_add]
    unfold cis
    rw [Complex.ext_iff]
    simp only [Complex.add_re, Complex.mul_re, Complex.add_im, Complex.mul_im, Real.cos_add, Real.sin_add]
    constructor <;> (field_simp; ring)

/-- Rolling along two lengths of the same curve is rolling along their sum. -/
theorem move_add (k a b : ℝ) (p : Pose) : move k b (move k a p) = move k (a + b) p := by
  unfold move
  rw [disp_add, mul_add k a b, cis_add]
  simp only [Prod.mk.injEq]
  constructor <;> ring

theorem move_zero (k : ℝ) (p : Pose) : move k 0 p = p := by
  unfold move; rw [disp_zero, mul_zero, mul_zero, cis_zero]; simp

theorem move_neg (k a : ℝ) (p : Pose) : move k (-a) (move k a p) = p := by rw [move_add, add_neg_cancel, move_zero]

theorem eval_pose (K : CC E W) (t : ℝ) : (K.eval t).pose = move K.curvature (K.ratio t * K.curveLength) K.init.pose := by
  unfold CC.eval Cfg.pose move disp cis
  by_cases h : K.curvature = 0
  · simp only [h, if_true]
    refine Prod.ext ?_ ?_ <;> rw [Complex.ext_iff] <;> simp [mul_comm]
  · simp only [h, if_false]
    refine Prod.ext ?_ ?_ <;> rw [Complex.ext_iff]
    · simp
      constructor <;> ring
    · simp

theorem Cfg.ext' {q r : Cfg E W} (h : q.pose = r.pose) (ho : q.o = r.o) (hw : q.wheel = r.wheel) : q = r := by
  obtain ⟨x, y, c, s, o, w⟩ := q
  obtain ⟨x', y', c', s', o', w'⟩ := r
  simp only [Cfg.pose, Prod.mk.injEq, Complex.mk.injEq] at h
  obtain ⟨⟨rfl, rfl⟩, rfl, rfl⟩ := h
  simp only at ho hw
  rw [ho, hw]

/-! ## Consistent paths -/

/-- The same configuration up to the wheels. -/
def Same (q r : Cfg E W) : Prop := q.pose = r.pose ∧ q.o = r.o

/-- A path whose final configuration is the one reached, up to the wheels. -/
structure CC.Coherent (K : CC E W) : Prop where
  range : K.t0 ≤ K.t1
  fin : Same K.fin (K.eval K.t1)

theorem ratio_start (K : CC E W) : K.ratio K.t0 = 0 := by unfold CC.ratio; simp

theorem ratio_end (K : CC E W) (h : K.t1 - K.t0 ≠ 0) : K.ratio K.t1 = 1 := by
  unfold CC.ratio; rw [if_neg h, div_self h]

theorem eval_start (K : CC E W) : K.eval K.t0 = { K.init with wheel := K.wv } := by
  refine Cfg.ext' ?_ ?_ rfl
  · rw [eval_pose, ratio_start, zero_mul, move_zero]; rfl
  · simp [CC.eval, ratio_start, lerp]

/-- C85: a created path is consistent: it is defined on [0, |pathLength|], it starts at the initial configuration and reaches its final configuration, except for the
wheels at the beginning (they are set to the value of the curvature all along the path); when its length is not null, the other degrees of freedom reach the ones that
were asked for. -/
theorem C85_create (init fin : Cfg E W) (cl pl k : ℝ) (wv : W) :
    let K := CC.create init fin cl pl k wv
    K.Coherent ∧ K.t0 = 0 ∧ K.t1 = |pl| ∧ K.eval 0 = { init with wheel := wv } ∧ K.eval |pl| = K.fin ∧
      (pl ≠ 0 → K.fin.pose = move k cl init.pose ∧ K.fin.o = fin.o) ∧ (pl = 0 → Same K.fin init) := by
  intro K
  have hf : K.eval |pl| = K.fin := by
    refine Cfg.ext' ?_ ?_ rfl
    · show (K.eval |pl|).pose = (CC.eval ⟨init, fin, cl, k, 0, |pl|, if 0 < cl then 1 else -1, wv⟩ |pl|).pose
      rw [eval_pose, eval_pose]
      rfl
    · show lerp init.o (lerp init.o fin.o _) _ = lerp init.o fin.o _
      simp only [CC.ratio, K, CC.create, sub_zero, lerp]
      by_cases h : |pl| = 0
      · simp [h]
      · simp [h]
  refine ⟨⟨abs_nonneg _, ?_⟩, rfl, rfl, eval_start K, hf, fun h => ?_, fun h => ?_⟩
  · show Same K.fin (K.eval |pl|)
    rw [hf]; exact ⟨rfl, rfl⟩
  · have h' : |pl| ≠ 0 := abs_ne_zero.2 h
    constructor
    · show (CC.eval ⟨init, fin, cl, k, 0, |pl|, if 0 < cl then 1 else -1, wv⟩ |pl|).pose = _
      rw [eval_pose]
      simp [CC.ratio, h']
    · show lerp init.o fin.o _ = _
      simp [CC.ratio, h', lerp]
  · constructor
    · show (CC.eval ⟨init, fin, cl, k, 0, |pl|, if 0 < cl then 1 else -1, wv⟩ |pl|).pose = _
      rw [eval_pose]
      simp [CC.ratio, h, move_zero]
    · show lerp init.o fin.o _ = _
      simp [CC.ratio, h, lerp]

theorem bound_same {K : CC E W} (hK : K.Coherent) (t : ℝ) : Same (K.bound t) (K.eval t) := by
  unfold CC.bound
  by_cases h0 : t = K.t0
  · rw [if_pos h0, h0, eval_start]; exact ⟨rfl, rfl⟩
  · rw [if_neg h0]
    by_cases h1 : t = K.t1
    · rw [if_pos h1, h1]; exact hK.fin
    · rw [if_neg h1]; exact ⟨rfl, rfl⟩

theorem lerp_lerp (a b : E) (u v w : ℝ) : lerp (lerp a b u) (lerp a b v) w = lerp a b (u + w * (v - u)) := by
  unfold lerp; module

/-- Evaluation of a path between two configurations of a path. -/
theorem eval_between {K : CC E W} (K' : CC E W) {a b : ℝ} (hw : K'.wv = K.wv) (hk : K'.curvature = K.curvature) (ha : Same K'.init (K.eval a)) (hb : Same K'.fin (K.eval b))
    (hc : K'.curveLength = (K.ratio b - K.ratio a) * K.curveLength) {t s : ℝ} (hr : K.ratio s = K.ratio a + K'.ratio t * (K.ratio b - K.ratio a)) :
    K'.eval t = K.eval s := by
  refine Cfg.ext' ?_ ?_ hw
  · rw [eval_pose, eval_pose, ha.1, eval_pose, hk, hc, move_add, hr]
    congr 1; ring
  · show lerp K'.init.o K'.fin.o _ = lerp K.init.o K.fin.o _
    rw [ha.2, hb.2]
    show lerp (lerp K.init.o K.fin.o _) (lerp K.init.o K.fin.o _) _ = _
    rw [lerp_lerp, hr]

/-- C85: the path extracted between the times `a` and `b` is defined on an interval of length |b - a|; at the time `s` it is at the configuration of the path at the time
`a + s` if `a ≤ b`, `a - s` otherwise. -/
theorem C85_extract {K : CC E W} (hK : K.Coherent) (hl : K.t0 < K.t1) (a b : ℝ) :
    (K.extract a b).Coherent ∧ (K.extract a b).t0 = 0 ∧ (K.extract a b).t1 = |b - a| ∧
      ∀ s, 0 ≤ s → s ≤ |b - a| → (K.extract a b).eval s = K.eval (if a ≤ b then a + s else a - s) := by
  have hL : K.t1 - K.t0 ≠ 0 := (sub_pos.2 hl).ne'
  have hlen : (K.extract a b).t1 = |b - a| := by
    simp only [CC.extract, hL, ne_eq, not_false_eq_true, if_true]
    field_simp
  have key : ∀ s, 0 ≤ s → s ≤ |b - a| → (K.extract a b).eval s = K.eval (if a ≤ b then a + s else a - s) := by
    intro s h0 h1
    refine eval_between (K := K) (a := a) (b := b) (K.extract a b) rfl rfl (bound_same hK a) (bound_same hK b) ?_ ?_
    · simp only [CC.extract, hL, ne_eq, not_false_eq_true, if_true, CC.ratio, if_false]
      field_simp
      ring
    · simp only [CC.ratio, hL, if_false, hlen]
      rw [show (K.extract a b).t0 = 0 from rfl, sub_zero, sub_zero]
      by_cases hab : a = b
      · have : s = 0 := le_antisymm (by simpa [hab] using h1) h0
        simp [hab, this]
      · have hne : |b - a| ≠ 0 := abs_ne_zero.2 (sub_ne_zero.2 (Ne.symm hab))
        rw [if_neg hne]
        by_cases hle : a ≤ b
        · rw [if_pos hle, abs_of_nonneg (sub_nonneg.2 hle)]
          rw [abs_of_nonneg (sub_nonneg.2 hle)] at hne
          field_simp; ring
        · rw [if_neg hle, abs_of_neg (sub_neg.2 (not_le.1 hle))]
          have : b - a ≠ 0 := sub_ne_zero.2 (Ne.symm hab)
          field_simp; ring
  refine ⟨⟨?_, ?_⟩, rfl, hlen, key⟩
  · rw [hlen]; exact abs_nonneg _
  · rw [hlen, key _ (abs_nonneg _) le_rfl]
    have : (if a ≤ b then a + |b - a| else a - |b - a|) = b := by
      by_cases hle : a ≤ b
      · rw [if_pos hle, abs_of_nonneg (sub_nonneg.2 hle)]; ring
      · rw [if_neg hle, abs_of_neg (sub_neg.2 (not_le.1 hle))]; ring
    rw [this]
    exact bound_same hK b

/-- C85: the reversed path is at the time `s` at the configuration of the path at the time `s` before the end. -/
theorem C85_reverse {K : CC E W} (hK : K.Coherent) (hl : K.t0 < K.t1) :
    K.reverse.Coherent ∧ K.reverse.t0 = 0 ∧ K.reverse.t1 = K.t1 - K.t0 ∧ ∀ s, K.reverse.eval s = K.eval (K.t1 - s) := by
  have hL : K.t1 - K.t0 ≠ 0 := (sub_pos.2 hl).ne'
  have key : ∀ s, K.reverse.eval s = K.eval (K.t1 - s) := by
    intro s
    refine eval_between (K := K) (a := K.t1) (b := K.t0) K.reverse rfl rfl hK.fin ?_ ?_ ?_
    · rw [eval_start]; exact ⟨rfl, rfl⟩
    · rw [ratio_end K hL, ratio_start]; show -K.curveLength = _; ring
    · rw [ratio_end K hL, ratio_start]
      simp only [CC.ratio, CC.reverse, sub_zero, hL, if_false]
      field_simp; ring
  refine ⟨⟨?_, ?_⟩, rfl, rfl, key⟩
  · show (0 : ℝ) ≤ K.t1 - K.t0
    linarith
  · rw [key]
    show Same K.init (K.eval (K.t1 - (K.t1 - K.t0)))
    rw [sub_sub_cancel, eval_start]; exact ⟨rfl, rfl⟩

/-- C85: the wheels jump at the beginning of a path: they have the value of the curvature all along the path, whatever their initial value. -/
theorem C85_wheels_counterexample : ∃ K : CC ℝ ℝ, K = CC.create ⟨0, 0, 1, 0, 0, 0⟩ ⟨0, 0, 1, 0, 0, 0⟩ 1 1 1 1 ∧ K.init.wheel = 0 ∧ (K.eval 0).wheel = 1 :=
  ⟨_, rfl, rfl, rfl⟩

/-! ## Rolling without slipping -/

theorem ratio_deriv (K : CC E W) (hl : K.t0 < K.t1) (t : ℝ) : HasDerivAt K.ratio (1 / (K.t1 - K.t0)) t := by
  have hL : K.t1 - K.t0 ≠ 0 := (sub_pos.2 hl).ne'
  have : K.ratio = fun t => (t - K.t0) / (K.t1 - K.t0) := by
    funext t; unfold CC.ratio; rw [if_neg hL]
  rw [this]
  exact ((hasDerivAt_id t).sub_const _).div_const _

/-- C85: along a path, the car rolls without slipping: the velocity of its position is along its heading, at the speed `curveLength / length` (negative backward), and
its heading turns at this speed times the curvature. -/
theorem C85_rolling (K : CC E W) (hl : K.t0 < K.t1) (t : ℝ) :
    HasDerivAt (fun t => (K.eval t).x) (K.curveLength / (K.t1 - K.t0) * (K.eval t).c) t ∧
    HasDerivAt (fun t => (K.eval t).y) (K.curveLength / (K.t1 - K.t0) * (K.eval t).s) t ∧
    HasDerivAt (fun t => (K.eval t).c) (-(K.curveLength / (K.t1 - K.t0) * K.curvature) * (K.eval t).s) t ∧
    HasDerivAt (fun t => (K.eval t).s) (K.curveLength / (K.t1 - K.t0) * K.curvature * (K.eval t).c) t := by
  have hu := (ratio_deriv K hl t).mul_const K.curveLength
  have ha := hu.const_mul K.curvature
  have hc := ha.cos
  have hs := ha.sin
  refine ⟨?_, ?_, ?_, ?_⟩
  · simp only [CC.eval]
    by_cases h : K.curvature = 0
    · simp only [h, if_true]
      refine ((hu.mul_const K.init.c).const_add K.init.x).congr_deriv ?_
      simp only [zero_mul, Real.cos_zero, Real.sin_zero]; ring
    · simp only [h, if_false]
      refine ((((hc.sub_const 1).const_mul K.init.s).add (hs.const_mul K.init.c)).const_mul (1 / K.curvature)).const_add K.init.x |>.congr_deriv ?_
      field_simp; ring
  · simp only [CC.eval]
    by_cases h : K.curvature = 0
    · simp only [h, if_true]
      refine ((hu.mul_const K.init.s).const_add K.init.y).congr_deriv ?_
      simp only [zero_mul, Real.cos_zero, Real.sin_zero]; ring
    · simp only [h, if_false]
      refine ((((hc.const_sub 1).const_mul K.init.c).add (hs.const_mul K.init.s)).const_mul (1 / K.curvature)).const_add K.init.y |>.congr_deriv ?_
      field_simp
  · simp only [CC.eval]
    refine ((hc.const_mul K.init.c).sub (hs.const_mul K.init.s)).congr_deriv ?_
    ring
  · simp only [CC.eval]
    refine ((hs.const_mul K.init.c).add (hc.const_mul K.init.s)).congr_deriv ?_
    ring

/-- C85: the heading stays a unit vector. -/
theorem C85_heading (K : CC E W) (h : K.init.c ^ 2 + K.init.s ^ 2 = 1) (t : ℝ) : (K.eval t).c ^ 2 + (K.eval t).s ^ 2 = 1 := by
  have := Real.cos_sq_add_sin_sq (K.curvature * (K.ratio t * K.curveLength))
  simp only [CC.eval]
  linear_combination h * 1 + (K.init.c ^ 2 + K.init.s ^ 2) * this

/-- C85: when the steering angle is the only bound of the car, a path of curvature at most `1 / rho` never turns sharper than the radius `rho`: its heading turns by at most
`|curveLength| / rho`. -/
theorem C85_turn (K : CC E W) {rho : ℝ} (hr : 0 < rho) (hk : |K.curvature| ≤ 1 / rho) {t : ℝ} (h0 : K.t0 ≤ t) (h1 : t ≤ K.t1) :
    ∃ a : ℝ, |a| ≤ |K.curveLength| / rho ∧ (K.eval t).pose.2 = K.init.pose.2 * cis a := by
  refine ⟨K.curvature * (K.ratio t * K.curveLength), ?_, by rw [eval_pose]; rfl⟩
  have hu : |K.ratio t| ≤ 1 := by
    unfold CC.ratio
    split
    · simp
    · rename_i h
      have hp : 0 < K.t1 - K.t0 := lt_of_le_of_ne (by linarith) (Ne.symm h)
      rw [abs_of_nonneg (div_nonneg (by linarith) hp.le), div_le_one hp]
      linarith
  rw [abs_mul, abs_mul]
  calc |K.curvature| * (|K.ratio t| * |K.curveLength|) ≤ 1 / rho * (1 * |K.curveLength|) := by gcongr
    _ = _ := by ring

example : ∃ K : CC ℝ ℝ, K.Coherent ∧ K.t0 < K.t1 ∧ K.curvature ≠ 0 ∧ K.init.c ^ 2 + K.init.s ^ 2 = 1 :=
  ⟨CC.create ⟨0, 0, 1, 0, 0, 0⟩ ⟨0, 0, 1, 0, 0, 0⟩ 1 1 1 1, (C85_create _ _ _ _ _ _).1, by simp [CC.create], by simp [CC.create], by simp [CC.create]⟩

end Verif.Car
