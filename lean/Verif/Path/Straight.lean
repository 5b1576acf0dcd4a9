import Verif.Path.VectorExtract
import Mathlib.Algebra.Order.Group.Abs
import Mathlib.Algebra.Order.Field.Basic
import Mathlib.Data.Fintype.Defs
import Mathlib.Tactic.FieldSimp
import Mathlib.Tactic.Positivity

/-!
# Straight paths (C26)

The configuration space is only known through its interpolation function; a pair of configurations is `GeoPair` when interpolating
between two points of the segment it spans stays on that segment, at the expected place.  In a vector space every pair is `GeoPair`
(`vec_geoPair`); in a Lie group pairs that are joined by a unique shortest geodesic are.
-/
set_option linter.unusedSectionVars false
namespace Verif.PathV
variable {K C : Type} [Field K] [LinearOrder K] [IsStrictOrderedRing K]

/-- `LiegroupSpace::interpolate` / `pinocchio::interpolate` (external): only its values at both ends are assumed. -/
structure Space (K C : Type) [Zero K] [One K] where
  interp : C → C → K → C
  zero : ∀ a b, interp a b 0 = a
  one : ∀ a b, interp a b 1 = b

/-- Interpolating between two points of a segment gives the point of the segment at the interpolated parameter. -/
def GeoPair (S : Space K C) (a b : C) : Prop :=
  ∀ u v w, 0 ≤ u → u ≤ 1 → 0 ≤ v → v ≤ 1 → 0 ≤ w → w ≤ 1 →
    S.interp (S.interp a b u) (S.interp a b v) w = S.interp a b (u + w * (v - u))

/-- Vector spaces (`RnxSOnConfigSpace` of a robot with only bounded or translation joints). -/
def vecSpace (K ι : Type) [Field K] : Space K (ι → K) where
  interp a b u := fun i => a i + u * (b i - a i)
  zero a b := by funext i; ring
  one a b := by funext i; ring

theorem vec_geoPair {ι : Type} (a b : ι → K) : GeoPair (vecSpace K ι) a b := by
  intro u v w _ _ _ _ _ _
  funext i
  simp only [vecSpace]
  ring

/-- Members of `StraightPath`. -/
structure Straight (K C : Type) where
  pr : K × K
  q0 : C
  q1 : C
  cons : Option (Cst K C)

/-- `StraightPath::impl_compute`: straight-path.cc:91-110. -/
def Straight.impl (S : Space K C) (p : Straight K C) (s : K) : C :=
  let L := p.pr.2 - p.pr.1
  if s = p.pr.1 ∨ L = 0 then p.q0
  else if s = p.pr.2 then p.q1
  else S.interp p.q0 p.q1 ((s - p.pr.1) / L)

/-- `configAtParam` / `eval` without time parameterization: path.hh:128-138, 305-311. -/
def Straight.eval (S : Space K C) (p : Straight K C) (s : K) : Except Err C :=
  constrained p.cons s (.ok (p.impl S s))

/-- `StraightPath::impl_extract`: straight-path.cc:142-158. -/
def Straight.extract (S : Space K C) (p : Straight K C) (a b : K) : Except Err (Straight K C) :=
  match p.eval S a with
  | .error e => .error e
  | .ok q1 =>
    match p.eval S b with
    | .error e => .error e
    | .ok q2 => .ok ⟨(0, |b - a|), q1, q2, p.cons⟩

/-- `Path::reverse`: path.cc:228-233. -/
def Straight.reverse (S : Space K C) (p : Straight K C) : Except Err (Straight K C) := p.extract S p.pr.2 p.pr.1

/-- The operations of `StraightPath` seen through the interface of `Path`. -/
def straightOps (S : Space K C) : Ops K C (Straight K C) where
  lo p := p.pr.1
  hi p := p.pr.2
  eval := Straight.eval S
  extract := Straight.extract S
  reverse := Straight.reverse S
  constraints p := p.cons
  copyWith c p := { p with cons := some c }

/-- `StraightPath::impl_derivative` of order at least 1: straight-path.cc:112-130. -/
def Straight.derivative {ι : Type} (p : Straight K (ι → K)) (order : Nat) : ι → K := fun i =>
  if order > 1 then 0
  else if p.pr.1 = p.pr.2 then 0 else (p.q1 i - p.q0 i) / (p.pr.2 - p.pr.1)

/-- `StraightPath::impl_velocityBound`: straight-path.cc:132-140. -/
def Straight.velocityBound {ι : Type} (p : Straight K (ι → K)) : ι → K := fun i =>
  if p.pr.1 = p.pr.2 then 0 else |p.q1 i - p.q0 i| / (p.pr.2 - p.pr.1)

/-- The three cases of `impl_compute` are one formula. -/
theorem Straight.impl_eq (S : Space K C) (p : Straight K C) (h : p.pr.1 < p.pr.2) (s : K) :
    p.impl S s = S.interp p.q0 p.q1 ((s - p.pr.1) / (p.pr.2 - p.pr.1)) := by
  have hL : p.pr.2 - p.pr.1 ≠ 0 := ne_of_gt (sub_pos.2 h)
  unfold Straight.impl
  simp only [hL, or_false]
  split
  · next h => rw [h, sub_self, zero_div, S.zero]
  · split
    · next h => rw [h, div_self hL, S.one]
    · rfl

/-- A straight path is consistent: its range is not reversed, its ends span a geodesic, no constraint. -/
def GoodStraight (S : Space K C) (p : Straight K C) : Prop := p.pr.1 ≤ p.pr.2 ∧ GeoPair S p.q0 p.q1 ∧ p.cons = none

/-- Affine combination of two points of a segment: the heart of extraction. -/
theorem Straight.sub (S : Space K C) (p : Straight K C) (hg : GeoPair S p.q0 p.q1) (h : p.pr.1 < p.pr.2) (a b w : K)
    (ha : p.pr.1 ≤ a ∧ a ≤ p.pr.2) (hb : p.pr.1 ≤ b ∧ b ≤ p.pr.2) (hw : 0 ≤ w) (hw1 : w ≤ 1) :
    S.interp (p.impl S a) (p.impl S b) w = p.impl S (a + w * (b - a)) := by
  have hL : 0 < p.pr.2 - p.pr.1 := sub_pos.2 h
  simp only [p.impl_eq S h]
  rw [hg _ _ _ (div_nonneg (by linarith) hL.le) ((div_le_one hL).2 (by linarith)) (div_nonneg (by linarith) hL.le)
    ((div_le_one hL).2 (by linarith)) hw hw1]
  congr 1
  field_simp
  ring

theorem Straight.geo_sub (S : Space K C) (p : Straight K C) (hg : GeoPair S p.q0 p.q1) (h : p.pr.1 < p.pr.2) (a b : K)
    (ha : p.pr.1 ≤ a ∧ a ≤ p.pr.2) (hb : p.pr.1 ≤ b ∧ b ≤ p.pr.2) : GeoPair S (p.impl S a) (p.impl S b) := by
  intro u v w u0 u1 v0 v1 w0 w1
  have key : ∀ t, 0 ≤ t → t ≤ 1 → p.pr.1 ≤ a + t * (b - a) ∧ a + t * (b - a) ≤ p.pr.2 := by
    intro t t0 t1
    constructor <;> nlinarith [mul_nonneg t0 (sub_nonneg.2 hb.1), mul_nonneg (sub_nonneg.2 t1) (sub_nonneg.2 ha.1),
      mul_nonneg t0 (sub_nonneg.2 hb.2), mul_nonneg (sub_nonneg.2 t1) (sub_nonneg.2 ha.2)]
  have huv : 0 ≤ u + w * (v - u) ∧ u + w * (v - u) ≤ 1 := by
    constructor <;> nlinarith [mul_nonneg w0 v0, mul_nonneg (sub_nonneg.2 w1) u0, mul_nonneg w0 (sub_nonneg.2 v1),
      mul_nonneg (sub_nonneg.2 w1) (sub_nonneg.2 u1)]
  rw [p.sub S hg h a b u ha hb u0 u1, p.sub S hg h a b v ha hb v0 v1, p.sub S hg h a b _ ha hb huv.1 huv.2,
    p.sub S hg h _ _ w (key u u0 u1) (key v v0 v1) w0 w1]
  congr 1
  ring

theorem Straight.const (S : Space K C) (p : Straight K C) (h : p.pr.1 = p.pr.2) (s : K) : p.impl S s = p.q0 := by
  simp [Straight.impl, h]

theorem geoPair_self (S : Space K C) (a b : C) (h : GeoPair S a b) : GeoPair S a a := by
  have k : ∀ t, 0 ≤ t → t ≤ 1 → S.interp a a t = a := by
    intro t t0 t1
    have := h 0 0 t (le_refl _) zero_le_one (le_refl _) zero_le_one t0 t1
    simpa [S.zero] using this
  intro u v w u0 u1 v0 v1 w0 w1
  have huv : 0 ≤ u + w * (v - u) ∧ u + w * (v - u) ≤ 1 := by
    constructor <;> nlinarith [mul_nonneg w0 v0, mul_nonneg (sub_nonneg.2 w1) u0, mul_nonneg w0 (sub_nonneg.2 v1),
      mul_nonneg (sub_nonneg.2 w1) (sub_nonneg.2 u1)]
  rw [k u u0 u1, k v v0 v1, k w w0 w1, k _ huv.1 huv.2]

/-- Extraction of a consistent straight path, both directions at once: the value at `x` is the original's at the point reached from `a`
towards `b` after `x`. -/
theorem Straight.extract_spec (S : Space K C) (p r : Straight K C) (hp : GoodStraight S p) (a b : K)
    (ha : p.pr.1 ≤ a ∧ a ≤ p.pr.2) (hb : p.pr.1 ≤ b ∧ b ≤ p.pr.2) (hr : p.extract S a b = .ok r) :
    GoodStraight S r ∧ r.pr = (0, |b - a|) ∧
      ∀ w, 0 ≤ w → w ≤ 1 → r.eval S (w * |b - a|) = p.eval S (a + w * (b - a)) := by
  obtain ⟨hle, hg, hc⟩ := hp
  simp only [Straight.extract, Straight.eval, constrained, hc, Except.ok.injEq] at hr
  subst hr
  simp only [Straight.eval, constrained, hc]
  rcases lt_or_eq_of_le hle with hlt | heq
  · refine ⟨⟨abs_nonneg _, p.geo_sub S hg hlt a b ha hb, rfl⟩, trivial, fun w w0 w1 => ?_⟩
    congr 1
    by_cases hab : a = b
    · subst hab
      rw [Straight.const S _ (by simp)]
      simp
    · have hpos : (0 : K) < |b - a| := abs_pos.2 (sub_ne_zero.2 (Ne.symm hab))
      rw [Straight.impl_eq S _ (by exact hpos)]
      simp only [sub_zero]
      rw [mul_div_assoc, div_self hpos.ne', mul_one]
      exact p.sub S hg hlt a b w ha hb w0 w1
  · have e1 : ∀ s, p.impl S s = p.q0 := p.const S heq
    refine ⟨⟨abs_nonneg _, by rw [e1, e1]; exact geoPair_self S _ _ hg, rfl⟩, trivial, fun w _ _ => ?_⟩
    congr 1
    rw [e1]
    have hab : a = b := by
      have h1 := ha.1; have h2 := ha.2; have h3 := hb.1; have h4 := hb.2
      rw [← heq] at h2 h4
      exact (le_antisymm h2 h1).trans (le_antisymm h4 h3).symm
    subst hab
    rw [Straight.const S _ (by simp)]
    exact (e1 _).symm

/-- Straight paths satisfy the assumptions made on the pieces of path vectors. -/
theorem straight_lawful (S : Space K C) : Lawful (straightOps S) (GoodStraight S) := by
  have fwd : ∀ (p : Straight K C) (a b : K) (r : Straight K C), GoodStraight S p → p.pr.1 ≤ a → a ≤ b → b ≤ p.pr.2 → p.extract S a b = .ok r →
      GoodStraight S r ∧ r.pr.2 - r.pr.1 = b - a ∧ ∀ x, 0 ≤ x → x ≤ b - a → r.eval S (r.pr.1 + x) = p.eval S (a + x) := by
    intro p a b r hp h1 h2 h3 hr
    obtain ⟨k1, k2, k3⟩ := p.extract_spec S r hp a b ⟨h1, h2.trans h3⟩ ⟨h1.trans h2, h3⟩ hr
    rw [abs_of_nonneg (sub_nonneg.2 h2)] at k2 k3
    refine ⟨k1, by rw [k2]; simp, fun x x0 x1 => ?_⟩
    rw [k2]
    simp only [zero_add]
    rcases lt_or_eq_of_le h2 with hlt | heq
    · have hpos := sub_pos.2 hlt
      have := k3 (x / (b - a)) (div_nonneg x0 hpos.le) ((div_le_one hpos).2 x1)
      rwa [div_mul_cancel₀ _ hpos.ne'] at this
    · subst heq
      have hx : x = 0 := le_antisymm (by simpa using x1) x0
      subst hx
      simpa using k3 0 (le_refl _) zero_le_one
  have bwd : ∀ (p : Straight K C) (a b : K) (r : Straight K C), GoodStraight S p → p.pr.1 ≤ b → b ≤ a → a ≤ p.pr.2 → p.extract S a b = .ok r →
      GoodStraight S r ∧ r.pr.2 - r.pr.1 = a - b ∧ ∀ x, 0 ≤ x → x ≤ a - b → r.eval S (r.pr.1 + x) = p.eval S (a - x) := by
    intro p a b r hp h1 h2 h3 hr
    obtain ⟨k1, k2, k3⟩ := p.extract_spec S r hp a b ⟨h1.trans h2, h3⟩ ⟨h1, h2.trans h3⟩ hr
    rw [abs_sub_comm, abs_of_nonneg (sub_nonneg.2 h2)] at k2 k3
    refine ⟨k1, by rw [k2]; simp, fun x x0 x1 => ?_⟩
    rw [k2]
    simp only [zero_add]
    rcases lt_or_eq_of_le h2 with hlt | heq
    · have hpos := sub_pos.2 hlt
      have := k3 (x / (a - b)) (div_nonneg x0 hpos.le) ((div_le_one hpos).2 x1)
      rw [div_mul_cancel₀ _ hpos.ne'] at this
      rw [this]
      congr 1
      have : b - a = -(a - b) := by ring
      rw [this, mul_neg, div_mul_cancel₀ _ hpos.ne', sub_eq_add_neg]
    · subst heq
      have hx : x = 0 := le_antisymm (by simpa using x1) x0
      subst hx
      simpa using k3 0 (le_refl _) zero_le_one
  refine ⟨fun p hp => sub_nonneg.2 hp.1, fwd, fun p a b r hp h1 h2 h3 hr => bwd p a b r hp h1 h2.le h3 hr, fun p r hp hr => ?_⟩
  exact bwd p p.pr.2 p.pr.1 r hp (le_refl _) hp.1 (le_refl _) hr

/-- Extraction of an unconstrained straight path never fails. -/
theorem straight_extract_total (S : Space K C) (p : Straight K C) (h : p.cons = none) (a b : K) : ∃ r, p.extract S a b = .ok r := by
  simp [Straight.extract, Straight.eval, constrained, h]

/-- **C26** (ends): a straight path starts at its initial configuration and ends at its end configuration. -/
theorem C26_ends (S : Space K C) (p : Straight K C) (h : p.pr.1 ≤ p.pr.2) (hc : p.pr.1 = p.pr.2 → p.q0 = p.q1) :
    p.impl S p.pr.1 = p.q0 ∧ p.impl S p.pr.2 = p.q1 := by
  refine ⟨by simp [Straight.impl], ?_⟩
  rcases lt_or_eq_of_le h with hlt | heq
  · rw [p.impl_eq S hlt, div_self (ne_of_gt (sub_pos.2 hlt)), S.one]
  · rw [p.const S heq, hc heq]

/-- **C26** (speed): in a vector space, between any two parameters, each coordinate moves by exactly the derivative times the elapsed
parameter, hence by exactly `velocityBound` times it in absolute value: the bound is never exceeded and is attained. -/
theorem C26_speed {ι : Type} (p : Straight K (ι → K)) (h : p.pr.1 ≤ p.pr.2) (s s' : K) (i : ι) :
    p.impl (vecSpace K ι) s' i - p.impl (vecSpace K ι) s i = p.derivative 1 i * (s' - s) ∧
    |p.impl (vecSpace K ι) s' i - p.impl (vecSpace K ι) s i| = p.velocityBound i * |s' - s| := by
  have key : p.impl (vecSpace K ι) s' i - p.impl (vecSpace K ι) s i = p.derivative 1 i * (s' - s) := by
    rcases lt_or_eq_of_le h with hlt | heq
    · have hL := ne_of_gt (sub_pos.2 hlt)
      rw [p.impl_eq _ hlt, p.impl_eq _ hlt]
      simp only [vecSpace, Straight.derivative, if_neg hlt.ne, gt_iff_lt, lt_self_iff_false, if_false]
      field_simp
      ring
    · rw [p.const _ heq, p.const _ heq]
      simp [Straight.derivative, heq]
  refine ⟨key, ?_⟩
  rw [key, abs_mul]
  congr 1
  unfold Straight.derivative Straight.velocityBound
  rcases lt_or_eq_of_le h with hlt | heq
  · simp only [if_neg hlt.ne, gt_iff_lt, lt_self_iff_false, if_false]
    rw [abs_div, abs_of_pos (sub_pos.2 hlt)]
  · simp [heq]

/-- **C26** (extraction): the part extracted between `a` and `b`, in either order, has length `|b - a|` and its value after `x` is the value
of the original at the point at distance `x` of `a` in the direction of `b`. -/
theorem C26_extract_partial (S : Space K C) (p : Straight K C) (hp : GoodStraight S p) (a b : K)
    (ha : p.pr.1 ≤ a ∧ a ≤ p.pr.2) (hb : p.pr.1 ≤ b ∧ b ≤ p.pr.2) :
    ∃ r, p.extract S a b = .ok r ∧ r.pr.2 - r.pr.1 = |b - a| ∧
      (a ≤ b → ∀ x, 0 ≤ x → x ≤ b - a → r.eval S (r.pr.1 + x) = p.eval S (a + x)) ∧
      (b ≤ a → ∀ x, 0 ≤ x → x ≤ a - b → r.eval S (r.pr.1 + x) = p.eval S (a - x)) := by
  obtain ⟨r, hr⟩ := straight_extract_total S p hp.2.2 a b
  refine ⟨r, hr, by rw [(p.extract_spec S r hp a b ha hb hr).2.1]; simp, fun h => ?_, fun h => ?_⟩
  · exact ((straight_lawful S).fwd p a b r hp ha.1 h hb.2 hr).2.2
  · exact ((straight_lawful S).bwd' p a b r hp hb.1 h ha.2 hr).2.2

/-- The unit segment of the plane, run in two units of time from 1 to 3. -/
def exStraight : Straight ℚ (Bool → ℚ) := ⟨(1, 3), fun _ => 0, fun b => if b then 2 else -4, none⟩

example : GoodStraight (vecSpace ℚ Bool) exStraight ∧ exStraight.pr.1 < exStraight.pr.2 ∧
    exStraight.impl (vecSpace ℚ Bool) 2 false = -2 ∧ exStraight.velocityBound false = 2 :=
  ⟨⟨by simp [exStraight], vec_geoPair _ _, rfl⟩, by simp [exStraight], by decide +kernel, by decide +kernel⟩

/-- A constraint that squares the value, with a fixed point at both ends of `[0, 1]`. -/
def sqCst : Cst ℚ (Unit → ℚ) := fun _ q => .ok fun i => q i * q i

/-- **C26** (constraints): with constraints the extracted part interpolates between the *projected* ends, and its value is in general not
that of the original: half way of the part `[0, 1/2]` of a constrained path one gets `(1/8)^2` instead of `(1/4)^2`. -/
theorem C26_constraints_counterexample :
    let p : Straight ℚ (Unit → ℚ) := ⟨(0, 1), fun _ => 0, fun _ => 1, some sqCst⟩
    ∃ r, p.extract (vecSpace ℚ Unit) 0 (1 / 2) = .ok r ∧ r.eval (vecSpace ℚ Unit) (1 / 4) ≠ p.eval (vecSpace ℚ Unit) (1 / 4) := by
  refine ⟨_, rfl, ?_⟩
  intro h
  have := congrArg (fun e : Except Err (Unit → ℚ) => e.toOption.map (fun f => f ())) h
  revert this
  decide +kernel

end Verif.PathV
