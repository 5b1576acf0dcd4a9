import Verif.Path.Straight
import Mathlib.Analysis.SpecialFunctions.Trigonometric.Angle
set_option linter.unusedSectionVars false

/-!
# Straight paths in Lie groups (C26, C128)

Configuration spaces of robots with unbounded rotation joints are products of lines and circles; rotations and rigid body motions are other groups.
Interpolation is `q0 + u (q1 - q0)` where `-` is the logarithm of the relative displacement and `+` the exponential.
-/
namespace Verif.PathV

/-! ## Any group -/

section Group
variable {K G : Type} [Field K] [LinearOrder K] [IsStrictOrderedRing K] [Group G]

/-- Interpolation in a Lie group, `q0 * exp (u log (q0⁻¹ q1))` (`LiegroupSpace::interpolate`, called at straight-path.cc:108): `e z u` stands for `exp (u log z)`, nothing else
than its values at both ends is assumed, in particular not which logarithm is chosen. -/
def groupSpace (e : G → K → G) (h0 : ∀ z, e z 0 = 1) (h1 : ∀ z, e z 1 = z) : Space K G where
  interp a b u := a * e (a⁻¹ * b) u
  zero a b := by rw [h0, mul_one]
  one a b := by rw [h1]; group

/-- C128: whatever the logarithm, the reverse of a straight path between two configurations that differ by an element of order 2 (half a turn) does
not go through the middle configuration of the path. -/
theorem C128_halfturn (e : G → K → G) (h0 : ∀ z, e z 0 = 1) (h1 : ∀ z, e z 1 = z) (p : Straight K G) (hc : p.cons = none) (hL : p.pr.1 < p.pr.2)
    (hz : p.q0⁻¹ * p.q1 ≠ 1) (hz2 : (p.q0⁻¹ * p.q1) * (p.q0⁻¹ * p.q1) = 1) :
    ∃ r, p.reverse (groupSpace e h0 h1) = .ok r ∧ r.pr = (0, p.pr.2 - p.pr.1) ∧ r.q0 = p.q1 ∧ r.q1 = p.q0 ∧
      r.eval (groupSpace e h0 h1) ((p.pr.2 - p.pr.1) / 2) ≠ p.eval (groupSpace e h0 h1) ((p.pr.1 + p.pr.2) / 2) := by
  have hpos := sub_pos.2 hL
  have e1 := (C26_ends (groupSpace e h0 h1) p hL.le (fun h => absurd h hL.ne)).1
  have e2 := (C26_ends (groupSpace e h0 h1) p hL.le (fun h => absurd h hL.ne)).2
  refine ⟨⟨(0, |p.pr.1 - p.pr.2|), p.q1, p.q0, none⟩, ?_, ?_, rfl, rfl, ?_⟩
  · simp only [Straight.reverse, Straight.extract, Straight.eval, constrained, hc, e1, e2]
  · rw [abs_sub_comm, abs_of_pos hpos]
  · simp only [Straight.eval, constrained, hc, ne_eq, Except.ok.injEq]
    rw [abs_sub_comm, abs_of_pos hpos, Straight.impl_eq _ _ hpos, Straight.impl_eq _ _ hL]
    simp only [sub_zero]
    rw [show (p.pr.2 - p.pr.1) / 2 / (p.pr.2 - p.pr.1) = 1 / 2 by field_simp,
      show ((p.pr.1 + p.pr.2) / 2 - p.pr.1) / (p.pr.2 - p.pr.1) = 1 / 2 by field_simp; ring]
    show ¬ p.q1 * e (p.q1⁻¹ * p.q0) (1 / 2) = p.q0 * e (p.q0⁻¹ * p.q1) (1 / 2)
    have k : p.q1⁻¹ * p.q0 = p.q0⁻¹ * p.q1 := by
      have := eq_inv_of_mul_eq_one_left hz2
      rw [this]; group
    rw [k, mul_left_inj]
    intro h
    exact hz (by rw [h]; group)

end Group

/-! ## Lines and circles -/

open Real

noncomputable section

/-- Joints of one degree of freedom: bounded or translation joints, unbounded rotations. -/
inductive Jt where
  | line
  | circle
  deriving DecidableEq

def Jt.Val : Jt → Type
  | .line => ℝ
  | .circle => Real.Angle

/-- `q1 - q0`: the logarithm of a planar rotation is its angle in (-π, π]. -/
def Jt.diff : (j : Jt) → j.Val → j.Val → ℝ
  | .line, a, b => (show ℝ from b) - (show ℝ from a)
  | .circle, a, b => Real.Angle.toReal ((show Real.Angle from b) - (show Real.Angle from a))

/-- `q + v`. -/
def Jt.plus : (j : Jt) → j.Val → ℝ → j.Val
  | .line, a, v => (show ℝ from a) + v
  | .circle, a, v => (show Real.Angle from a) + (v : Real.Angle)

theorem Jt.plus_zero (j : Jt) (a : j.Val) : j.plus a 0 = a := by
  cases j
  · exact add_zero (show ℝ from a)
  · show (show Real.Angle from a) + ((0 : ℝ) : Real.Angle) = a
    rw [Real.Angle.coe_zero]; exact add_zero (show Real.Angle from a)

theorem Jt.plus_diff (j : Jt) (a b : j.Val) : j.plus a (j.diff a b) = b := by
  cases j
  · exact add_sub_cancel (show ℝ from a) (show ℝ from b)
  · show (show Real.Angle from a) + ((Real.Angle.toReal ((show Real.Angle from b) - (show Real.Angle from a)) : ℝ) : Real.Angle) = b
    rw [Real.Angle.coe_toReal]
    exact add_sub_cancel (show Real.Angle from a) (show Real.Angle from b)

theorem Jt.plus_plus (j : Jt) (a : j.Val) (v w : ℝ) : j.plus (j.plus a v) w = j.plus a (v + w) := by
  cases j
  · exact add_assoc (show ℝ from a) v w
  · show (show Real.Angle from a) + (v : Real.Angle) + (w : Real.Angle) = (show Real.Angle from a) + ((v + w : ℝ) : Real.Angle)
    rw [Real.Angle.coe_add, add_assoc]

/-- The difference between two points at `v` and `w` from `a`. -/
theorem Jt.diff_plus (j : Jt) (a : j.Val) (v w : ℝ) (h : j = .circle → -π < w - v ∧ w - v ≤ π) : j.diff (j.plus a v) (j.plus a w) = w - v := by
  cases j
  · exact add_sub_add_left_eq_sub w v (show ℝ from a)
  · show Real.Angle.toReal (((show Real.Angle from a) + (w : Real.Angle)) - ((show Real.Angle from a) + (v : Real.Angle))) = _
    rw [add_sub_add_left_eq_sub, ← Real.Angle.coe_sub, Real.Angle.toReal_coe_eq_self_iff]
    exact h rfl

theorem Jt.abs_diff (j : Jt) (a b : j.Val) (h : j = .circle) : -π < j.diff a b ∧ j.diff a b ≤ π := by
  subst h
  exact ⟨Real.Angle.neg_pi_lt_toReal _, Real.Angle.toReal_le_pi _⟩

variable {ι : Type}

/-- The configuration space of a robot with joints `J`. -/
def robotSpace (J : ι → Jt) : Space ℝ ((i : ι) → (J i).Val) where
  interp a b u := fun i => (J i).plus (a i) (u * (J i).diff (a i) (b i))
  zero a b := by funext i; rw [zero_mul, Jt.plus_zero]
  one a b := by funext i; rw [one_mul, Jt.plus_diff]

/-- Specification: no unbounded rotation joint has exactly half a turn to do. -/
def NoHalfTurn (J : ι → Jt) (a b : (i : ι) → (J i).Val) : Prop := ∀ i, J i = .circle → (J i).diff (a i) (b i) ≠ π

/-- C128: except for half turns, segments of the configuration space are made of their sub-segments, in both directions. -/
theorem C128_geoPair_partial (J : ι → Jt) (a b : (i : ι) → (J i).Val) (h : NoHalfTurn J a b) : GeoPair (robotSpace J) a b := by
  intro u v w u0 u1 v0 v1 w0 w1
  funext i
  show (J i).plus ((J i).plus (a i) _) (w * (J i).diff ((J i).plus (a i) _) ((J i).plus (a i) _)) = (J i).plus (a i) _
  rw [Jt.diff_plus, Jt.plus_plus]
  · congr 1; ring
  · intro hc
    obtain ⟨h1, h2⟩ := (J i).abs_diff (a i) (b i) hc
    have h3 := lt_of_le_of_ne h2 (h i hc)
    generalize (J i).diff (a i) (b i) = d at *
    have k : |v * d - u * d| < π := by
      rw [← sub_mul, abs_mul]
      have : |v - u| ≤ 1 := abs_le.2 ⟨by linarith, by linarith⟩
      calc |v - u| * |d| ≤ 1 * |d| := mul_le_mul_of_nonneg_right this (abs_nonneg _)
        _ = |d| := one_mul _
        _ < π := abs_lt.2 ⟨h1, h3⟩
    exact ⟨(abs_lt.1 k).1, (abs_lt.1 k).2.le⟩

/-- `StraightPath::impl_derivative` of order 1: straight-path.cc:118-126. -/
def Straight.derivativeJ (J : ι → Jt) (p : Straight ℝ ((i : ι) → (J i).Val)) (i : ι) : ℝ :=
  if p.pr.1 = p.pr.2 then 0 else (J i).diff (p.q0 i) (p.q1 i) / (p.pr.2 - p.pr.1)

/-- `StraightPath::impl_velocityBound`: straight-path.cc:132-140. -/
def Straight.velocityBoundJ (J : ι → Jt) (p : Straight ℝ ((i : ι) → (J i).Val)) (i : ι) : ℝ :=
  if p.pr.1 = p.pr.2 then 0 else |(J i).diff (p.q0 i) (p.q1 i)| / (p.pr.2 - p.pr.1)

/-- C128: forwards along the path, each joint moves by exactly the derivative times the elapsed parameter (half turns included), and `velocityBound` is the absolute
value of the derivative. -/
theorem C128_speed (J : ι → Jt) (p : Straight ℝ ((i : ι) → (J i).Val)) (h : p.pr.1 ≤ p.pr.2) (s s' : ℝ) (h0 : p.pr.1 ≤ s) (h1 : s ≤ s') (h2 : s' ≤ p.pr.2) (i : ι) :
    (J i).diff (p.impl (robotSpace J) s i) (p.impl (robotSpace J) s' i) = p.derivativeJ J i * (s' - s) ∧ |p.derivativeJ J i| = p.velocityBoundJ J i := by
  unfold Straight.derivativeJ Straight.velocityBoundJ
  rcases lt_or_eq_of_le h with hlt | heq
  · have hL := sub_pos.2 hlt
    rw [if_neg hlt.ne, if_neg hlt.ne, abs_div, abs_of_pos hL]
    refine ⟨?_, rfl⟩
    rw [p.impl_eq _ hlt, p.impl_eq _ hlt]
    show (J i).diff ((J i).plus (p.q0 i) _) ((J i).plus (p.q0 i) _) = _
    rw [Jt.diff_plus]
    · field_simp; ring
    · intro hc
      obtain ⟨k1, k2⟩ := (J i).abs_diff (p.q0 i) (p.q1 i) hc
      generalize (J i).diff (p.q0 i) (p.q1 i) = d at *
      rw [← sub_mul, ← sub_div]
      have w0 : 0 ≤ (s' - p.pr.1 - (s - p.pr.1)) / (p.pr.2 - p.pr.1) := div_nonneg (by linarith) hL.le
      have w1 : (s' - p.pr.1 - (s - p.pr.1)) / (p.pr.2 - p.pr.1) ≤ 1 := (div_le_one hL).2 (by linarith)
      generalize (s' - p.pr.1 - (s - p.pr.1)) / (p.pr.2 - p.pr.1) = w at *
      have hpi := Real.pi_pos
      constructor
      · rcases le_total 0 d with hd | hd
        · linarith [mul_nonneg w0 hd]
        · nlinarith [mul_nonneg (sub_nonneg.2 w1) (neg_nonneg.2 hd)]
      · rcases le_total 0 d with hd | hd
        · nlinarith [mul_nonneg (sub_nonneg.2 w1) hd]
        · nlinarith [mul_nonneg w0 (neg_nonneg.2 hd)]
  · rw [if_pos heq, if_pos heq, abs_zero]
    refine ⟨?_, rfl⟩
    rw [p.const _ heq, p.const _ heq, zero_mul]
    have : (J i).diff (p.q0 i) (p.q0 i) = (J i).diff ((J i).plus (p.q0 i) 0) ((J i).plus (p.q0 i) 0) := by rw [Jt.plus_zero]
    rw [this, Jt.diff_plus _ _ _ _ (fun _ => by simpa using ⟨Real.pi_pos, Real.pi_pos.le⟩)]
    · simp

/-- C128: extraction and reversal of straight paths without half turn: the part between `a` and `b`, in either order. -/
theorem C128_extract_partial (J : ι → Jt) (p : Straight ℝ ((i : ι) → (J i).Val)) (h : p.pr.1 ≤ p.pr.2) (hc : p.cons = none) (hn : NoHalfTurn J p.q0 p.q1) (a b : ℝ)
    (ha : p.pr.1 ≤ a ∧ a ≤ p.pr.2) (hb : p.pr.1 ≤ b ∧ b ≤ p.pr.2) :
    ∃ r, p.extract (robotSpace J) a b = .ok r ∧ r.pr.2 - r.pr.1 = |b - a| ∧
      (a ≤ b → ∀ x, 0 ≤ x → x ≤ b - a → r.eval (robotSpace J) (r.pr.1 + x) = p.eval (robotSpace J) (a + x)) ∧
      (b ≤ a → ∀ x, 0 ≤ x → x ≤ a - b → r.eval (robotSpace J) (r.pr.1 + x) = p.eval (robotSpace J) (a - x)) :=
  C26_extract_partial (robotSpace J) p ⟨h, C128_geoPair_partial J _ _ hn, hc⟩ a b ha hb

/-! ## Half a turn -/

/-- A joint that turns from 0 to π. -/
def halfTurn : Straight ℝ ((i : Unit) → (Jt.Val .circle)) := ⟨(0, π), fun _ => ((0 : ℝ) : Real.Angle), fun _ => ((π : ℝ) : Real.Angle), none⟩

theorem halfTurn_diff : Jt.diff .circle (halfTurn.q0 ()) (halfTurn.q1 ()) = π := by
  show Real.Angle.toReal (((π : ℝ) : Real.Angle) - ((0 : ℝ) : Real.Angle)) = π
  rw [Real.Angle.coe_zero, sub_zero]
  exact Real.Angle.toReal_pi

/-- C128: the path avoids the angle -π/2 at all its parameters; its reverse goes through it.  (`Roadmap::addEdges`, roadmap.cc:144-154, inserts the reverse of a validated path
without validating it.) -/
theorem C128_halfturn_counterexample :
    (∀ t, 0 ≤ t → t ≤ π → halfTurn.eval (robotSpace fun _ => .circle) t ≠ .ok fun _ => ((-(π / 2) : ℝ) : Real.Angle)) ∧
    ∃ r, halfTurn.reverse (robotSpace fun _ => .circle) = .ok r ∧ r.pr = (0, π) ∧ r.eval (robotSpace fun _ => .circle) (π / 2) = .ok fun _ => ((-(π / 2) : ℝ) : Real.Angle) := by
  have hpi := Real.pi_pos
  have e1 := (C26_ends (robotSpace fun _ => .circle) halfTurn hpi.le (fun h => absurd h hpi.ne)).1
  have e2 := (C26_ends (robotSpace fun _ => .circle) halfTurn hpi.le (fun h => absurd h hpi.ne)).2
  refine ⟨?_, ⟨(0, |0 - π|), halfTurn.q1, halfTurn.q0, none⟩, ?_, ?_, ?_⟩
  · intro t t0 t1 h
    have h' : halfTurn.impl (robotSpace fun _ => .circle) t = fun _ => ((-(π / 2) : ℝ) : Real.Angle) := Except.ok.inj h
    rw [Straight.impl_eq _ _ hpi] at h'
    have h2 : ((0 : ℝ) : Real.Angle) + (((t - 0) / (π - 0) * Jt.diff .circle (halfTurn.q0 ()) (halfTurn.q1 ()) : ℝ) : Real.Angle) = ((-(π / 2) : ℝ) : Real.Angle) := congrFun h' ()
    rw [halfTurn_diff, Real.Angle.coe_zero, zero_add, sub_zero, sub_zero, div_mul_cancel₀ _ hpi.ne'] at h2
    have h3 := congrArg Real.Angle.toReal h2
    rw [Real.Angle.toReal_coe_eq_self_iff.2 ⟨by linarith, t1⟩, Real.Angle.toReal_coe_eq_self_iff.2 ⟨by linarith, by linarith⟩] at h3
    linarith
  · show halfTurn.extract _ halfTurn.pr.2 halfTurn.pr.1 = _
    simp only [Straight.extract, Straight.eval, constrained, e1, e2, show halfTurn.cons = none from rfl]
    rfl
  · rw [zero_sub, abs_neg, abs_of_pos hpi]
  · simp only [Straight.eval, constrained]
    rw [zero_sub, abs_neg, abs_of_pos hpi, Straight.impl_eq _ _ hpi]
    congr 1
    funext u
    show ((π : ℝ) : Real.Angle) + (((π / 2 - 0) / (π - 0) * Real.Angle.toReal (((0 : ℝ) : Real.Angle) - ((π : ℝ) : Real.Angle)) : ℝ) : Real.Angle) = _
    rw [Real.Angle.coe_zero, zero_sub, Real.Angle.neg_coe_pi, Real.Angle.toReal_pi, sub_zero, sub_zero, ← Real.Angle.coe_add,
      show π / 2 / π * π = π / 2 by field_simp]
    rw [Real.Angle.angle_eq_iff_two_pi_dvd_sub]
    exact ⟨1, by push_cast; ring⟩

/-- hypotheses of `C128_halfturn`: rotations of the plane, half a turn -/
example : ∃ (e : Multiplicative Real.Angle → ℝ → Multiplicative Real.Angle), (∀ z, e z 0 = 1) ∧ (∀ z, e z 1 = z) ∧
    ∃ z : Multiplicative Real.Angle, (1 : Multiplicative Real.Angle)⁻¹ * z ≠ 1 ∧ ((1 : Multiplicative Real.Angle)⁻¹ * z) * (1⁻¹ * z) = 1 := by
  refine ⟨fun z u => Multiplicative.ofAdd ((u * Real.Angle.toReal (Multiplicative.toAdd z) : ℝ) : Real.Angle), fun z => by simp, fun z => by simp,
    Multiplicative.ofAdd ((π : ℝ) : Real.Angle), ?_, ?_⟩
  · rw [inv_one, one_mul]
    intro h
    exact Real.Angle.pi_ne_zero (Multiplicative.ofAdd.injective h)
  · rw [inv_one, one_mul, ← ofAdd_add, Real.Angle.coe_pi_add_coe_pi]; rfl

/-- a translation joint and a rotation joint that does a quarter of turn: no half turn -/
example : NoHalfTurn (ι := Bool) (fun b => if b then .line else .circle) (fun b => match b with | true => (0 : ℝ) | false => ((0 : ℝ) : Real.Angle))
    (fun b => match b with | true => (5 : ℝ) | false => ((π / 2 : ℝ) : Real.Angle)) := by
  intro i hi
  cases i with
  | true => simp at hi
  | false =>
    show Real.Angle.toReal (((π / 2 : ℝ) : Real.Angle) - ((0 : ℝ) : Real.Angle)) ≠ π
    have hpi := Real.pi_pos
    rw [Real.Angle.coe_zero, sub_zero, Real.Angle.toReal_coe_eq_self_iff.2 ⟨by linarith, by linarith⟩]
    linarith

end

end Verif.PathV
