import Verif.Car.Arc
import Mathlib.Analysis.Real.Pi.Bounds
set_option linter.unusedSectionVars false

/-!
# Derivatives and velocity bound of paths of constant curvature (C86)

Only the components of the car are modelled: velocity of the position in the frame of the car, velocity of the heading. The others (constant-curvature.cc:242-247, 324-326,
306-310, 372-377) are those of a straight path, or 0 for the wheels.
-/
namespace Verif.Car
open Complex

variable {E W : Type} [AddCommGroup E] [Module ℝ E]

/-- `impl_derivative`: constant-curvature.cc:236-311; `none` is the exception of lines 259-263. -/
noncomputable def CC.derivative (K : CC E W) (param : ℝ) (order : ℕ) : Option (ℝ × ℝ × ℝ) :=
  let L := K.t1 - K.t0
  let t := K.ratio param * K.curveLength
  let beta := if L = 0 then 1 else K.curveLength / L
  let alpha := if K.forward = -1 ∧ order % 2 = 1 then -|beta| else |beta|
  let c0 := K.init.c
  let s0 := K.init.s
  let c := Real.cos (K.curvature * t)
  let s := Real.sin (K.curvature * t)
  let pw := (K.curvature * beta) ^ (order - 1)
  let d : ℝ × ℝ × ℝ :=
    if order = 1 then (alpha * (c0 * c - s0 * s), alpha * (c0 * s + s0 * c), alpha * K.curvature)
    else if order % 4 = 2 then (alpha * pw * (c0 * s + s0 * c), -alpha * pw * (c0 * c - s0 * s), 0)
    else if order % 4 = 3 then (-alpha * pw * (c0 * c - s0 * s), -alpha * pw * (c0 * s + s0 * c), 0)
    else if order % 4 = 0 then (alpha * pw * (c0 * s + s0 * c), -alpha * pw * (c0 * c - s0 * s), 0)
    else (alpha * pw * (c0 * c - s0 * s), alpha * pw * (c0 * s + s0 * c), 0)
  let r0 := c0 * c - s0 * s
  let r1 := c0 * s + s0 * c
  if order = 0 then none else some (r0 * d.1 + r1 * d.2.1, -r1 * d.1 + r0 * d.2.1, d.2.2)

/-- `absCosineMax`: constant-curvature.cc:49-56. -/
noncomputable def absCosineMax (t0 t1 : ℝ) : ℝ :=
  if t1 ≤ Real.pi then max |Real.cos t0| |Real.cos t1| else if t0 ≤ Real.pi then 1 else max |Real.cos t0| |Real.cos t1|

/-- `absSineMax`: constant-curvature.cc:59-67. -/
noncomputable def absSineMax (t0 t1 : ℝ) : ℝ :=
  if t1 ≤ Real.pi / 2 then Real.sin t1
  else if t0 ≤ Real.pi / 2 then 1
  else if 3 * (Real.pi / 2) ≤ t0 then -Real.sin t0
  else if 3 * (Real.pi / 2) ≤ t1 then 1
  else max (Real.sin t0) (Real.sin t1)

/-- Angles swept, before the heading is added: constant-curvature.cc:338-342. -/
noncomputable def CC.sweep (K : CC E W) (p0 p1 : ℝ) : ℝ × ℝ :=
  let L := K.t1 - K.t0
  let a := K.curvature * K.curveLength * (p0 - K.t0) / L
  let b := K.curvature * K.curveLength * (p1 - K.t0) / L
  if b < a then (b, a) else (a, b)

/-- Angles given to the two functions above: constant-curvature.cc:346-356. -/
noncomputable def CC.angles (K : CC E W) (p0 p1 : ℝ) : ℝ × ℝ :=
  let w := K.sweep p0 p1
  let tI := arg ⟨K.init.c, K.init.s⟩
  let kd := (⌊(w.1 + tI) / Real.pi / 2⌋ : ℝ) * 2 * Real.pi
  (w.1 + tI - kd, w.2 + tI - kd)

/-- `impl_velocityBound`: constant-curvature.cc:313-378; the assertions of lines 357, 366 and 367 are not checked (release). -/
noncomputable def CC.velocityBound (K : CC E W) (p0 p1 : ℝ) : ℝ × ℝ × ℝ :=
  if K.t0 = K.t1 then (0, 0, 0)
  else
    let alpha := |K.curveLength| / (K.t1 - K.t0)
    let M : ℝ × ℝ :=
      if K.curvature ≠ 0 then
        if Real.pi ≤ (K.sweep p0 p1).2 - (K.sweep p0 p1).1 then (1, 1)
        else (absCosineMax (K.angles p0 p1).1 (K.angles p0 p1).2, absSineMax (K.angles p0 p1).1 (K.angles p0 p1).2)
      else (1, 0)
    (alpha * M.1, alpha * M.2, alpha * |K.curvature|)

/-! ## Derivatives of the motion -/

/-- Speed of the car. -/
noncomputable def CC.speed (K : CC E W) : ℝ := K.curveLength / (K.t1 - K.t0)

/-- Heading, as a complex number. -/
noncomputable def CC.heading (K : CC E W) (t : ℝ) : ℂ := ⟨(K.eval t).c, (K.eval t).s⟩

theorem heading_deriv (K : CC E W) (hl : K.t0 < K.t1) (w : ℂ) (t : ℝ) :
    HasDerivAt (fun t => (w * K.heading t).re) (K.speed * K.curvature * (w * I * K.heading t).re) t ∧
    HasDerivAt (fun t => (w * K.heading t).im) (K.speed * K.curvature * (w * I * K.heading t).im) t := by
  obtain ⟨_, _, hc, hs⟩ := C85_rolling K hl t
  constructor
  · have : (fun t => (w * K.heading t).re) = fun t => w.re * (K.eval t).c - w.im * (K.eval t).s := by
      funext t; simp [CC.heading]
    rw [this]
    refine ((hc.const_mul w.re).sub (hs.const_mul w.im)).congr_deriv ?_
    simp [CC.heading, CC.speed]; ring
  · have : (fun t => (w * K.heading t).im) = fun t => w.re * (K.eval t).s + w.im * (K.eval t).c := by
      funext t; simp [CC.heading]
    rw [this]
    refine ((hs.const_mul w.re).add (hc.const_mul w.im)).congr_deriv ?_
    simp [CC.heading, CC.speed]; ring

/-- Derivatives of the position at any order. -/
theorem iterated (K : CC E W) (hl : K.t0 < K.t1) (n : ℕ) (t : ℝ) :
    iteratedDeriv (n + 1) (fun t => (K.eval t).x) t = K.speed * (K.speed * K.curvature) ^ n * (I ^ n * K.heading t).re ∧
    iteratedDeriv (n + 1) (fun t => (K.eval t).y) t = K.speed * (K.speed * K.curvature) ^ n * (I ^ n * K.heading t).im := by
  induction n generalizing t with
  | zero =>
    rw [zero_add, iteratedDeriv_one, iteratedDeriv_one]
    obtain ⟨hx, hy, _, _⟩ := C85_rolling K hl t
    rw [hx.deriv, hy.deriv]
    simp [CC.heading, CC.speed]
  | succ n ih =>
    rw [iteratedDeriv_succ, iteratedDeriv_succ (f := fun t => (K.eval t).y)]
    rw [show iteratedDeriv (n + 1) (fun t => (K.eval t).x) = _ from funext fun t => (ih t).1,
      show iteratedDeriv (n + 1) (fun t => (K.eval t).y) = _ from funext fun t => (ih t).2]
    obtain ⟨h1, h2⟩ := heading_deriv K hl (I ^ n) t
    rw [(h1.const_mul _).deriv, (h2.const_mul _).deriv, pow_succ I n]
    constructor <;> ring

/-- The derivative of order `n` of the position of the car, in the frame of the car. -/
noncomputable def CC.localDeriv (K : CC E W) (n : ℕ) (t : ℝ) : ℝ × ℝ :=
  let X := iteratedDeriv n (fun t => (K.eval t).x) t
  let Y := iteratedDeriv n (fun t => (K.eval t).y) t
  ((K.eval t).c * X + (K.eval t).s * Y, -(K.eval t).s * X + (K.eval t).c * Y)

/-- The sign of `forward` and of the length of the curve agree. -/
def CC.Dir (K : CC E W) : Prop := K.forward = if 0 < K.curveLength then 1 else -1

theorem dir_create (init fin : Cfg E W) (cl pl k : ℝ) (wv : W) : (CC.create init fin cl pl k wv).Dir := rfl

theorem dir_extract (K : CC E W) (a b : ℝ) : (K.extract a b).Dir := rfl

theorem dir_reverse (K : CC E W) : K.reverse.Dir := by
  unfold CC.Dir CC.reverse
  simp only [Left.neg_pos_iff]

theorem alpha_odd {K : CC E W} (hd : K.Dir) (hl : K.t0 < K.t1) : (if K.forward = -1 then -|K.speed| else |K.speed|) = K.speed := by
  have hp : 0 < K.t1 - K.t0 := sub_pos.2 hl
  unfold CC.Dir at hd
  by_cases h : 0 < K.curveLength
  · rw [hd, if_pos h, if_neg (by norm_num), abs_of_pos (show 0 < K.speed from div_pos h hp)]
  · rw [hd, if_neg h, if_pos rfl, abs_of_nonpos (show K.speed ≤ 0 from div_nonpos_of_nonpos_of_nonneg (not_lt.1 h) hp.le), neg_neg]

theorem I_pow_mod (n : ℕ) : I ^ n = I ^ (n % 4) := by
  conv_lhs => rw [← Nat.div_add_mod n 4, pow_add, pow_mul, I_pow_four, one_pow, one_mul]

/-- C86: the derivative of order 1 is the velocity of the car in its frame: the speed `curveLength / length` along its heading, no side velocity, and the speed of rotation. -/
theorem C86_velocity {K : CC E W} (hd : K.Dir) (hl : K.t0 < K.t1) (hn : K.init.c ^ 2 + K.init.s ^ 2 = 1) (t : ℝ) :
    K.derivative t 1 = some (K.speed, 0, K.speed * K.curvature) ∧ K.localDeriv 1 t = (K.speed, 0) := by
  have hL : K.t1 - K.t0 ≠ 0 := (sub_pos.2 hl).ne'
  have hh := C85_heading K hn t
  constructor
  · unfold CC.derivative
    simp only [hL, if_false, and_true, if_true, one_ne_zero]
    rw [show (if K.forward = -1 then -|K.curveLength / (K.t1 - K.t0)| else |K.curveLength / (K.t1 - K.t0)|) = K.speed from alpha_odd hd hl]
    simp only [CC.eval] at hh
    simp only [Option.some.injEq, Prod.mk.injEq]
    refine ⟨?_, ?_, trivial⟩
    · linear_combination K.speed * hh
    · ring
  · unfold CC.localDeriv
    obtain ⟨hx, hy⟩ := iterated K hl 0 t
    rw [zero_add] at hx hy
    simp only [hx, hy, pow_zero, one_mul, mul_one, CC.heading, Prod.mk.injEq]
    constructor
    · linear_combination K.speed * hh
    · ring

/-- Value of the derivative computed by the code: the derivative of the motion times `alpha / speed`, with another sign at the orders 2 mod 4. -/
theorem derivative_value {K : CC E W} (hd : K.Dir) (hl : K.t0 < K.t1) {n : ℕ} (h2 : 2 ≤ n) (t : ℝ) :
    ∃ r, K.derivative t n = some (r.1, r.2, 0) ∧
      (n % 2 = 1 → r = K.localDeriv n t) ∧ (n % 4 = 2 → K.speed * r.1 = -|K.speed| * (K.localDeriv n t).1 ∧ K.speed * r.2 = -|K.speed| * (K.localDeriv n t).2) ∧
      (n % 4 = 0 → K.speed * r.1 = |K.speed| * (K.localDeriv n t).1 ∧ K.speed * r.2 = |K.speed| * (K.localDeriv n t).2) := by
  have hL : K.t1 - K.t0 ≠ 0 := (sub_pos.2 hl).ne'
  obtain ⟨m, rfl⟩ : ∃ m, n = m + 1 := ⟨n - 1, by omega⟩
  obtain ⟨hx, hy⟩ := iterated K hl m t
  rw [I_pow_mod m] at hx hy
  have hsp : K.curveLength / (K.t1 - K.t0) = K.speed := rfl
  have hodd := alpha_odd hd hl
  unfold CC.derivative CC.localDeriv
  rw [hx, hy]
  have h4 : (m + 1) % 4 = 0 ∨ (m + 1) % 4 = 1 ∨ (m + 1) % 4 = 2 ∨ (m + 1) % 4 = 3 := by omega
  have hc : (K.eval t).c = K.init.c * Real.cos (K.curvature * (K.ratio t * K.curveLength)) - K.init.s * Real.sin (K.curvature * (K.ratio t * K.curveLength)) := rfl
  have hs : (K.eval t).s = K.init.c * Real.sin (K.curvature * (K.ratio t * K.curveLength)) + K.init.s * Real.cos (K.curvature * (K.ratio t * K.curveLength)) := rfl
  simp only [hL, if_false, hsp, ← hc, ← hs, show m + 1 ≠ 1 by omega, show m + 1 ≠ 0 by omega, CC.heading, Nat.add_sub_cancel]
  have hpw : (K.curvature * K.speed) ^ m = (K.speed * K.curvature) ^ m := by rw [mul_comm]
  rw [hpw]
  generalize (K.speed * K.curvature) ^ m = pw
  rcases h4 with h | h | h | h
  · have hm : m % 4 = 3 := by omega
    have e2 : (m + 1) % 2 = 0 := by omega
    refine ⟨(_, _), by simp only [h, e2]; norm_num; exact ⟨rfl, rfl⟩, fun h' => by omega, fun h' => by omega, fun _ => ?_⟩
    rw [hm, I_pow_three]
    constructor <;> (simp; ring)
  · have hm : m % 4 = 0 := by omega
    have e2 : (m + 1) % 2 = 1 := by omega
    refine ⟨(_, _), by simp only [h, e2, and_true, hodd]; norm_num; exact ⟨rfl, rfl⟩, fun _ => ?_, fun h' => by omega, fun h' => by omega⟩
    rw [hm]
    refine Prod.ext ?_ ?_ <;> simp
  · have hm : m % 4 = 1 := by omega
    have e2 : (m + 1) % 2 = 0 := by omega
    refine ⟨(_, _), by simp only [h, e2]; norm_num; exact ⟨rfl, rfl⟩, fun h' => by omega, fun _ => ?_, fun h' => by omega⟩
    rw [hm]
    constructor <;> (simp; ring)
  · have hm : m % 4 = 2 := by omega
    have e2 : (m + 1) % 2 = 1 := by omega
    refine ⟨(_, _), by simp only [h, e2, and_true, hodd]; norm_num; exact ⟨rfl, rfl⟩, fun _ => ?_, fun h' => by omega, fun h' => by omega⟩
    rw [hm]
    refine Prod.ext ?_ ?_ <;> simp

/-- C86: the derivative at a given order is right at the odd orders, at the orders 2 mod 4 backward, and at the orders 0 mod 4 forward. Missing: the other cases, where it is
the opposite of the derivative (see the counterexamples). -/
theorem C86_derivative_partial {K : CC E W} (hd : K.Dir) (hl : K.t0 < K.t1) {n : ℕ} (h2 : 2 ≤ n)
    (hs : n % 2 = 1 ∨ (n % 4 = 2 ∧ K.curveLength < 0) ∨ (n % 4 = 0 ∧ 0 < K.curveLength)) (t : ℝ) :
    K.derivative t n = some ((K.localDeriv n t).1, (K.localDeriv n t).2, 0) := by
  have hp : 0 < K.t1 - K.t0 := sub_pos.2 hl
  obtain ⟨r, hr, h1, hb, h0⟩ := derivative_value hd hl h2 t
  rw [hr]
  rcases hs with h | ⟨h, hc⟩ | ⟨h, hc⟩
  · rw [h1 h]
  · have hsp : K.speed < 0 := div_neg_of_neg_of_pos hc hp
    obtain ⟨e1, e2⟩ := hb h
    rw [abs_of_neg hsp, neg_neg] at e1 e2
    rw [mul_left_cancel₀ hsp.ne e1, mul_left_cancel₀ hsp.ne e2]
  · have hsp : 0 < K.speed := div_pos hc hp
    obtain ⟨e1, e2⟩ := h0 h
    rw [abs_of_pos hsp] at e1 e2
    rw [mul_left_cancel₀ hsp.ne' e1, mul_left_cancel₀ hsp.ne' e2]

/-- C86: in the other cases the derivative is the opposite of the derivative of the motion. -/
theorem C86_derivative_opposite {K : CC E W} (hd : K.Dir) (hl : K.t0 < K.t1) {n : ℕ} (h2 : 2 ≤ n)
    (hs : (n % 4 = 2 ∧ 0 < K.curveLength) ∨ (n % 4 = 0 ∧ K.curveLength < 0)) (t : ℝ) :
    K.derivative t n = some (-(K.localDeriv n t).1, -(K.localDeriv n t).2, 0) := by
  have hp : 0 < K.t1 - K.t0 := sub_pos.2 hl
  obtain ⟨r, hr, h1, hb, h0⟩ := derivative_value hd hl h2 t
  rw [hr]
  rcases hs with ⟨h, hc⟩ | ⟨h, hc⟩
  · have hsp : 0 < K.speed := div_pos hc hp
    obtain ⟨e1, e2⟩ := hb h
    rw [abs_of_pos hsp] at e1 e2
    rw [mul_left_cancel₀ hsp.ne' (show K.speed * r.1 = K.speed * -(K.localDeriv n t).1 by rw [e1]; ring),
      mul_left_cancel₀ hsp.ne' (show K.speed * r.2 = K.speed * -(K.localDeriv n t).2 by rw [e2]; ring)]
  · have hsp : K.speed < 0 := div_neg_of_neg_of_pos hc hp
    obtain ⟨e1, e2⟩ := h0 h
    rw [abs_of_neg hsp] at e1 e2
    rw [mul_left_cancel₀ hsp.ne (show K.speed * r.1 = K.speed * -(K.localDeriv n t).1 by rw [e1]; ring),
      mul_left_cancel₀ hsp.ne (show K.speed * r.2 = K.speed * -(K.localDeriv n t).2 by rw [e2]; ring)]

/-- A quarter of turn of radius 1, whose heading is along the second axis at the beginning. -/
noncomputable def turn (cl : ℝ) : CC ℝ ℝ := CC.create ⟨0, 0, 0, 1, 0, 0⟩ ⟨0, 0, 0, 1, 0, 0⟩ cl cl 1 0

theorem turn_speed (cl : ℝ) : (turn cl).speed = cl / |cl| := by simp [CC.speed, turn, CC.create]

/-- C86: the second derivative of a path driven forward is the opposite of the acceleration of the car, so is the fourth one backward. -/
theorem C86_derivative_counterexample :
    ((turn 1).localDeriv 2 0).2 = 1 ∧ (∃ r, (turn 1).derivative 0 2 = some r ∧ r.2.1 = -1) ∧
    ((turn (-1)).localDeriv 4 0).2 = -1 ∧ ∃ r, (turn (-1)).derivative 0 4 = some r ∧ r.2.1 = 1 := by
  have l1 : (turn 1).t0 < (turn 1).t1 := by simp [turn, CC.create]
  have l2 : (turn (-1)).t0 < (turn (-1)).t1 := by simp [turn, CC.create]
  have e1 : ((turn 1).localDeriv 2 0).2 = 1 := by
    obtain ⟨hx, hy⟩ := iterated (turn 1) l1 1 0
    unfold CC.localDeriv
    simp only [show (1 : ℕ) + 1 = 2 from rfl] at hx hy
    rw [hx, hy, turn_speed]
    simp [CC.heading, CC.eval, turn, CC.create, CC.ratio]
  have e2 : ((turn (-1)).localDeriv 4 0).2 = -1 := by
    obtain ⟨hx, hy⟩ := iterated (turn (-1)) l2 3 0
    unfold CC.localDeriv
    simp only [show (3 : ℕ) + 1 = 4 from rfl] at hx hy
    rw [hx, hy, turn_speed, I_pow_three]
    simp [CC.heading, CC.eval, turn, CC.create, CC.ratio]
    norm_num
  refine ⟨e1, ⟨_, C86_derivative_opposite (dir_create _ _ _ _ _ _) l1 le_rfl (Or.inl ⟨rfl, by simp [CC.create]⟩) 0, ?_⟩, e2,
    _, C86_derivative_opposite (dir_create _ _ _ _ _ _) l2 (by norm_num) (Or.inr ⟨rfl, by simp [CC.create]⟩) 0, ?_⟩
  · show -((turn 1).localDeriv 2 0).2 = -1
    rw [e1]
  · show -((turn (-1)).localDeriv 4 0).2 = 1
    rw [e2]; norm_num

/-! ## Velocity bound -/

theorem abs_cos_le_max {a b t : ℝ} (ha : 0 ≤ a) (hb : b ≤ Real.pi) (h0 : a ≤ t) (h1 : t ≤ b) : |Real.cos t| ≤ max |Real.cos a| |Real.cos b| := by
  have l1 := Real.cos_le_cos_of_nonneg_of_le_pi ha (h1.trans hb) h0
  have l2 := Real.cos_le_cos_of_nonneg_of_le_pi (ha.trans h0) hb h1
  rw [abs_le]
  constructor
  · have := neg_abs_le (Real.cos b)
    have := le_max_right |Real.cos a| |Real.cos b|
    linarith
  · have := le_abs_self (Real.cos a)
    have := le_max_left |Real.cos a| |Real.cos b|
    linarith

/-- C86: `absCosineMax` bounds the absolute value of the cosine between two angles of [0, 2π]. -/
theorem C86_absCosineMax {a b t : ℝ} (ha : 0 ≤ a) (hb : b ≤ 2 * Real.pi) (h0 : a ≤ t) (h1 : t ≤ b) : |Real.cos t| ≤ absCosineMax a b := by
  unfold absCosineMax
  split
  · rename_i h; exact abs_cos_le_max ha h h0 h1
  · split
    · exact Real.abs_cos_le_one t
    · rename_i h
      have := abs_cos_le_max (a := a - Real.pi) (b := b - Real.pi) (t := t - Real.pi) (by linarith [not_le.1 h]) (by linarith) (by linarith) (by linarith)
      simpa [Real.cos_sub_pi] using this

/-- C86: `absSineMax` bounds the absolute value of the sine between two angles of [0, 2π], if the interval is not inside (π/2, 3π/2) with a middle beyond π. -/
theorem C86_absSineMax_partial {a b t : ℝ} (ha : 0 ≤ a) (hb : b ≤ 2 * Real.pi) (h0 : a ≤ t) (h1 : t ≤ b)
    (hm : a ≤ Real.pi / 2 ∨ 3 * (Real.pi / 2) ≤ b ∨ a + b ≤ 2 * Real.pi) : |Real.sin t| ≤ absSineMax a b := by
  have hpi := Real.pi_pos
  unfold absSineMax
  split
  · rename_i h
    rw [abs_of_nonneg (Real.sin_nonneg_of_nonneg_of_le_pi (ha.trans h0) (by linarith))]
    exact Real.sin_le_sin_of_le_of_le_pi_div_two (by linarith) h h1
  · split
    · exact Real.abs_sin_le_one t
    · rename_i hb' ha'
      split
      · rename_i h
        have hs : Real.sin t = -Real.sin (2 * Real.pi - t) := by rw [Real.sin_two_pi_sub, neg_neg]
        have hs' : -Real.sin a = Real.sin (2 * Real.pi - a) := by rw [Real.sin_two_pi_sub]
        rw [hs, hs', abs_neg, abs_of_nonneg (Real.sin_nonneg_of_nonneg_of_le_pi (by linarith) (by linarith))]
        exact Real.sin_le_sin_of_le_of_le_pi_div_two (by linarith) (by linarith) (by linarith)
      · split
        · exact Real.abs_sin_le_one t
        · rename_i hb''
          have hab : a + b ≤ 2 * Real.pi := by
            rcases hm with h | h | h
            · exact absurd h ha'
            · exact absurd h hb''
            · exact h
          refine le_trans ?_ (le_max_left _ _)
          rw [← Real.sin_pi_sub a, ← Real.sin_pi_sub t, abs_le]
          constructor
          · have := Real.sin_le_sin_of_le_of_le_pi_div_two (x := -(Real.pi - a)) (y := Real.pi - t) (by linarith [not_le.1 ha']) (by linarith [not_le.1 ha']) (by linarith)
            rwa [Real.sin_neg] at this
          · exact Real.sin_le_sin_of_le_of_le_pi_div_two (by linarith [not_le.1 ha', not_le.1 hb'']) (by linarith [not_le.1 ha']) (by linarith)

/-- C86: beyond π, `absSineMax` is negative, and is no bound of the absolute value of the sine. -/
theorem C86_absSineMax_counterexample : absSineMax (Real.pi + Real.pi / 6) (Real.pi + Real.pi / 6) = -(1 / 2) ∧ |Real.sin (Real.pi + Real.pi / 6)| = 1 / 2 := by
  have hpi := Real.pi_pos
  have hs : Real.sin (Real.pi + Real.pi / 6) = -(1 / 2) := by rw [add_comm, Real.sin_add_pi, Real.sin_pi_div_six]
  constructor
  · unfold absSineMax
    rw [if_neg (by linarith), if_neg (by linarith), if_neg (by linarith), if_neg (by linarith), hs, max_self]
  · rw [hs]; norm_num

theorem sweep_le (K : CC E W) (p0 p1 : ℝ) : (K.sweep p0 p1).1 ≤ (K.sweep p0 p1).2 := by
  unfold CC.sweep
  simp only
  split
  · rename_i h; exact h.le
  · rename_i h; exact not_lt.1 h

/-- The angle swept at a time between the two parameters is between the two angles. -/
theorem sweep_mem (K : CC E W) (hl : K.t0 < K.t1) {p0 p1 t : ℝ} (h0 : p0 ≤ t) (h1 : t ≤ p1) :
    (K.sweep p0 p1).1 ≤ K.curvature * (K.ratio t * K.curveLength) ∧ K.curvature * (K.ratio t * K.curveLength) ≤ (K.sweep p0 p1).2 := by
  have hp : 0 < K.t1 - K.t0 := sub_pos.2 hl
  have e : K.curvature * (K.ratio t * K.curveLength) = K.curvature * K.curveLength * (t - K.t0) / (K.t1 - K.t0) := by
    unfold CC.ratio; rw [if_neg hp.ne']; field_simp
  rw [e]
  unfold CC.sweep
  simp only
  by_cases h : 0 ≤ K.curvature * K.curveLength
  · have l1 : K.curvature * K.curveLength * (p0 - K.t0) / (K.t1 - K.t0) ≤ K.curvature * K.curveLength * (t - K.t0) / (K.t1 - K.t0) := by gcongr
    have l2 : K.curvature * K.curveLength * (t - K.t0) / (K.t1 - K.t0) ≤ K.curvature * K.curveLength * (p1 - K.t0) / (K.t1 - K.t0) := by gcongr
    rw [if_neg (not_lt.2 (l1.trans l2))]
    exact ⟨l1, l2⟩
  · have h' := (not_le.1 h).le
    have l1 : K.curvature * K.curveLength * (t - K.t0) / (K.t1 - K.t0) ≤ K.curvature * K.curveLength * (p0 - K.t0) / (K.t1 - K.t0) :=
      (div_le_div_iff_of_pos_right hp).2 (mul_le_mul_of_nonpos_left (by linarith) h')
    have l2 : K.curvature * K.curveLength * (p1 - K.t0) / (K.t1 - K.t0) ≤ K.curvature * K.curveLength * (t - K.t0) / (K.t1 - K.t0) :=
      (div_le_div_iff_of_pos_right hp).2 (mul_le_mul_of_nonpos_left (by linarith) h')
    split
    · exact ⟨l2, l1⟩
    · rename_i hn
      have := not_lt.1 hn
      exact ⟨by linarith, by linarith⟩

theorem angles_nonneg (K : CC E W) (p0 p1 : ℝ) : 0 ≤ (K.angles p0 p1).1 := by
  have hpi := Real.pi_pos
  unfold CC.angles
  simp only
  have := Int.floor_le (((K.sweep p0 p1).1 + arg ⟨K.init.c, K.init.s⟩) / Real.pi / 2)
  rw [div_div, le_div_iff₀ (by positivity)] at this
  rw [div_div]
  linarith

theorem heading_angle (K : CC E W) (hn : K.init.c ^ 2 + K.init.s ^ 2 = 1) (t : ℝ) (n : ℤ) :
    (K.eval t).c = Real.cos (K.curvature * (K.ratio t * K.curveLength) + arg ⟨K.init.c, K.init.s⟩ - n * 2 * Real.pi) ∧
    (K.eval t).s = Real.sin (K.curvature * (K.ratio t * K.curveLength) + arg ⟨K.init.c, K.init.s⟩ - n * 2 * Real.pi) := by
  have hz : (⟨K.init.c, K.init.s⟩ : ℂ) ≠ 0 := by
    intro h
    have h1 := congrArg Complex.re h
    have h2 := congrArg Complex.im h
    simp only [Complex.zero_re, Complex.zero_im] at h1 h2
    rw [h1, h2] at hn
    norm_num at hn
  have hnorm : ‖(⟨K.init.c, K.init.s⟩ : ℂ)‖ = 1 := by
    rw [Complex.norm_def, Complex.normSq_mk, Real.sqrt_eq_one]
    linarith
  have hc : Real.cos (arg ⟨K.init.c, K.init.s⟩) = K.init.c := by rw [Complex.cos_arg hz, hnorm, div_one]
  have hs : Real.sin (arg ⟨K.init.c, K.init.s⟩) = K.init.s := by rw [Complex.sin_arg, hnorm, div_one]
  have e : ∀ a : ℝ, a - n * 2 * Real.pi = a - n * (2 * Real.pi) := fun a => by ring
  rw [e, Real.cos_sub_int_mul_two_pi, Real.sin_sub_int_mul_two_pi, Real.cos_add, Real.sin_add, hc, hs]
  simp only [CC.eval]
  constructor <;> ring

/-- C86: the bound of the speed of rotation is right, on any interval. -/
theorem C86_bound_rotation (K : CC E W) (hl : K.t0 < K.t1) (p0 p1 : ℝ) : (K.velocityBound p0 p1).2.2 = |K.speed * K.curvature| := by
  have hp : 0 < K.t1 - K.t0 := sub_pos.2 hl
  unfold CC.velocityBound
  rw [if_neg hl.ne]
  simp only
  rw [abs_mul, CC.speed, abs_div, abs_of_pos hp]

/-- C86: on a line, and on an interval where the car turns by at least π, the velocity in the frame of the car is within the bound. Missing: the other intervals (see the
counterexample). -/
theorem C86_bound_partial {K : CC E W} (hd : K.Dir) (hl : K.t0 < K.t1) (hn : K.init.c ^ 2 + K.init.s ^ 2 = 1) {p0 p1 : ℝ}
    (h : K.curvature = 0 ∨ Real.pi ≤ (K.sweep p0 p1).2 - (K.sweep p0 p1).1) (t : ℝ) :
    ∃ v, K.derivative t 1 = some v ∧ |v.1| ≤ (K.velocityBound p0 p1).1 ∧ |v.2.1| ≤ (K.velocityBound p0 p1).2.1 ∧ |v.2.2| ≤ (K.velocityBound p0 p1).2.2 := by
  have hp : 0 < K.t1 - K.t0 := sub_pos.2 hl
  refine ⟨_, (C86_velocity hd hl hn t).1, ?_, ?_, (C86_bound_rotation K hl p0 p1).symm ▸ le_rfl⟩
  · unfold CC.velocityBound
    rw [if_neg hl.ne]
    simp only [CC.speed, abs_div, abs_of_pos hp]
    rcases h with h | h
    · simp [h]
    · by_cases h0 : K.curvature = 0
      · simp [h0]
      · simp [h0, h]
  · unfold CC.velocityBound
    rw [if_neg hl.ne]
    simp only [abs_zero]
    rcases h with h | h
    · simp [h]
    · by_cases h0 : K.curvature = 0
      · simp [h0]
      · simp [h0, h]
        positivity

/-- C86: what the bound is about: the components in the frame of the world. They are within the bound when the angles are in [0, 2π], as the code asserts, and the interval
is not inside (π/2, 3π/2) with a middle beyond π. -/
theorem C86_bound_world_partial {K : CC E W} (hl : K.t0 < K.t1) (hn : K.init.c ^ 2 + K.init.s ^ 2 = 1) (hk : K.curvature ≠ 0) {p0 p1 : ℝ}
    (ha : (K.angles p0 p1).2 ≤ 2 * Real.pi)
    (hm : (K.angles p0 p1).1 ≤ Real.pi / 2 ∨ 3 * (Real.pi / 2) ≤ (K.angles p0 p1).2 ∨ (K.angles p0 p1).1 + (K.angles p0 p1).2 ≤ 2 * Real.pi)
    {t : ℝ} (h0 : p0 ≤ t) (h1 : t ≤ p1) :
    |deriv (fun t => (K.eval t).x) t| ≤ (K.velocityBound p0 p1).1 ∧ |deriv (fun t => (K.eval t).y) t| ≤ (K.velocityBound p0 p1).2.1 := by
  have hp : 0 < K.t1 - K.t0 := sub_pos.2 hl
  obtain ⟨hx, hy, _, _⟩ := C85_rolling K hl t
  rw [hx.deriv, hy.deriv]
  unfold CC.velocityBound
  rw [if_neg hl.ne]
  simp only [abs_mul, abs_div, abs_of_pos hp]
  have hq : 0 ≤ |K.curveLength| / (K.t1 - K.t0) := by positivity
  obtain ⟨e1, e2⟩ := heading_angle K hn t ⌊((K.sweep p0 p1).1 + arg ⟨K.init.c, K.init.s⟩) / Real.pi / 2⌋
  obtain ⟨s1, s2⟩ := sweep_mem K hl h0 h1
  rw [if_pos hk]
  by_cases hpi : Real.pi ≤ (K.sweep p0 p1).2 - (K.sweep p0 p1).1
  · rw [if_pos hpi]
    refine ⟨mul_le_mul_of_nonneg_left ?_ hq, mul_le_mul_of_nonneg_left ?_ hq⟩
    · rw [e1]; exact Real.abs_cos_le_one _
    · rw [e2]; exact Real.abs_sin_le_one _
  · rw [if_neg hpi]
    refine ⟨mul_le_mul_of_nonneg_left ?_ hq, mul_le_mul_of_nonneg_left ?_ hq⟩
    · rw [e1]
      exact C86_absCosineMax (angles_nonneg K p0 p1) ha (by unfold CC.angles; simp only; linarith) (by unfold CC.angles; simp only; linarith)
    · rw [e2]
      exact C86_absSineMax_partial (angles_nonneg K p0 p1) ha (by unfold CC.angles; simp only; linarith) (by unfold CC.angles; simp only; linarith) hm

theorem turn_arg : arg ⟨(turn 1).init.c, (turn 1).init.s⟩ = Real.pi / 2 := by
  have : (⟨(turn 1).init.c, (turn 1).init.s⟩ : ℂ) = I := by
    rw [Complex.ext_iff]; simp [turn, CC.create]
  rw [this, Complex.arg_I]

theorem turn_sweep : (turn 1).sweep 0 1 = (0, 1) := by simp [CC.sweep, turn, CC.create]

theorem turn_angles : (turn 1).angles 0 1 = (Real.pi / 2, Real.pi / 2 + 1) := by
  have hpi := Real.pi_pos
  unfold CC.angles
  simp only [turn_arg, turn_sweep]
  have : ⌊(0 + Real.pi / 2) / Real.pi / 2⌋ = 0 := by
    rw [show (0 + Real.pi / 2) / Real.pi / 2 = 1 / 4 by field_simp; norm_num]
    norm_num
  rw [this]
  norm_num
  ring

/-- C86: the velocity of the car in its frame, which is what `derivative` returns, is not within the bound: a car that drives at the speed 1 along the second axis of the
world gets a bound smaller than 1 for its first component. -/
theorem C86_bound_counterexample : (turn 1).derivative 0 1 = some (1, 0, 1) ∧ ((turn 1).velocityBound 0 1).1 = Real.sin 1 ∧ Real.sin 1 < 1 := by
  have hpi := Real.pi_pos
  have l1 : (turn 1).t0 < (turn 1).t1 := by simp [turn, CC.create]
  have h3 := Real.pi_gt_three
  refine ⟨?_, ?_, ?_⟩
  · rw [(C86_velocity (K := turn 1) (dir_create _ _ _ _ _ _) l1 (by simp [turn, CC.create]) 0).1, turn_speed]
    simp [turn, CC.create]
  · unfold CC.velocityBound
    rw [if_neg l1.ne]
    simp only [turn_sweep, turn_angles]
    rw [if_pos (by simp [turn, CC.create]), if_neg (by linarith)]
    unfold absCosineMax
    rw [if_pos (by linarith), Real.cos_pi_div_two, abs_zero, add_comm, Real.cos_add_pi_div_two, abs_neg]
    rw [max_eq_right (abs_nonneg _), abs_of_pos (Real.sin_pos_of_pos_of_lt_pi one_pos (by linarith))]
    simp [turn, CC.create]
  · have := Real.sin_lt_sin_of_lt_of_le_pi_div_two (x := 1) (y := Real.pi / 2) (by linarith) le_rfl (by linarith)
    rwa [Real.sin_pi_div_two] at this

/-- Half a turn, minus a bit, from the heading `-y`. -/
noncomputable def turn3 : CC ℝ ℝ := CC.create ⟨0, 0, 0, -1, 0, 0⟩ ⟨0, 0, 0, -1, 0, 0⟩ 2 2 1 0

/-- C86: the angles may exceed 2π: the assertion of line 357 is violated by a car that starts along `-y` and turns by 2 radians. The bound is then wrong even in the frame
of the world: the car meets the heading `x` on its way, where its velocity along `x` is 1, larger than the bound. -/
theorem C86_angles_counterexample : 2 * Real.pi < (turn3.angles 0 2).2 ∧ (turn3.velocityBound 0 2).1 < 1 ∧ ∃ t, 0 ≤ t ∧ t ≤ 2 ∧ deriv (fun t => (turn3.eval t).x) t = 1 := by
  have hpi := Real.pi_pos
  have h3 := Real.pi_gt_three
  have h4 := Real.pi_lt_d2
  have l1 : turn3.t0 < turn3.t1 := by simp [turn3, CC.create]
  have hsw : turn3.sweep 0 2 = (0, 2) := by simp [CC.sweep, turn3, CC.create]
  have harg : arg ⟨turn3.init.c, turn3.init.s⟩ = -(Real.pi / 2) := by
    have : (⟨turn3.init.c, turn3.init.s⟩ : ℂ) = -I := by
      rw [Complex.ext_iff]; simp [turn3, CC.create]
    rw [this, Complex.arg_neg_I]
  have hang : turn3.angles 0 2 = (3 * (Real.pi / 2), 3 * (Real.pi / 2) + 2) := by
    unfold CC.angles
    simp only [hsw, harg]
    have : ⌊(0 + -(Real.pi / 2)) / Real.pi / 2⌋ = -1 := by
      rw [show (0 + -(Real.pi / 2)) / Real.pi / 2 = -(1 / 4) by field_simp; norm_num]
      norm_num
    rw [this]
    norm_num
    constructor <;> ring
  refine ⟨by rw [hang]; show 2 * Real.pi < 3 * (Real.pi / 2) + 2; linarith, ?_, ?_⟩
  · unfold CC.velocityBound
    rw [if_neg l1.ne]
    simp only [hsw, hang]
    rw [if_pos (by simp [turn3, CC.create]), if_neg (by linarith)]
    unfold absCosineMax
    rw [if_neg (by linarith), if_neg (by linarith)]
    have c1 : Real.cos (3 * (Real.pi / 2)) = 0 := by
      rw [show 3 * (Real.pi / 2) = Real.pi / 2 + Real.pi by ring, Real.cos_add_pi, Real.cos_pi_div_two, neg_zero]
    have c2 : Real.cos (3 * (Real.pi / 2) + 2) = Real.sin 2 := by
      rw [show 3 * (Real.pi / 2) + 2 = 2 + Real.pi / 2 + Real.pi by ring, Real.cos_add_pi, Real.cos_add_pi_div_two, neg_neg]
    have s2 : 0 < Real.sin 2 := Real.sin_pos_of_pos_of_lt_pi (by norm_num) (by linarith)
    have s3 : Real.sin 2 < 1 := by
      have := Real.sin_lt_sin_of_lt_of_le_pi_div_two (x := Real.pi - 2) (y := Real.pi / 2) (by linarith) le_rfl (by linarith)
      rwa [Real.sin_pi_sub, Real.sin_pi_div_two] at this
    rw [c1, c2, abs_zero, max_eq_right (abs_nonneg _), abs_of_pos s2]
    simp [turn3, CC.create]
    exact s3
  · refine ⟨Real.pi / 2, by linarith, by linarith, ?_⟩
    rw [(C85_rolling turn3 l1 _).1.deriv]
    simp [turn3, CC.create, CC.eval, CC.ratio]

example : (turn 1).Dir ∧ (turn 1).t0 < (turn 1).t1 ∧ (turn 1).init.c ^ 2 + (turn 1).init.s ^ 2 = 1 ∧ (turn 1).curvature ≠ 0 ∧ ((turn 1).angles 0 1).2 ≤ 2 * Real.pi ∧
    ((turn 1).angles 0 1).1 ≤ Real.pi / 2 :=
  ⟨dir_create _ _ _ _ _ _, by simp [turn, CC.create], by simp [turn, CC.create], by simp [turn, CC.create],
    by rw [turn_angles]; show Real.pi / 2 + 1 ≤ _; linarith [Real.pi_gt_three], by rw [turn_angles]⟩

end Verif.Car
