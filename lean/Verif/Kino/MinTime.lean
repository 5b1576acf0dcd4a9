import Mathlib.Analysis.SpecialFunctions.Sqrt
import Mathlib.Analysis.Calculus.Deriv.MeanValue
import Mathlib.Analysis.Calculus.Deriv.Mul
import Mathlib.Analysis.Calculus.Deriv.Pow
import Mathlib.Tactic.Linarith
import Mathlib.Tactic.Ring
import Mathlib.Tactic.FieldSimp
import Mathlib.Tactic.Positivity
set_option linter.unusedSectionVars false

/-!
# Kinodynamic steering: minimal time of one degree of freedom (C56, C79)

`A` and `V` are the bounds on acceleration and velocity, `e` is `100 * epsilon`.  Real numbers instead of floating point numbers.
-/
namespace Verif.Kino

/-- `sgnenum`: steering-kinodynamic.cc:47. -/
noncomputable def sgnenum (x : ℝ) : ℝ := if 0 < x then 1 else if x < 0 then -1 else 0

/-- `sgn`, `sgnf`: steering-kinodynamic.cc:49-51. -/
noncomputable def sgn (x : ℝ) : ℝ := if 0 ≤ x then 1 else -1

/-- Accelerations and durations of the phases. -/
structure Traj where
  a1 : ℝ
  t1 : ℝ
  tv : ℝ
  t2 : ℝ
  vLim : ℝ

/-- Displacement of the direct acceleration, `deltaPacc`: steering-kinodynamic.cc:256. -/
noncomputable def deltaPacc (A v1 v2 : ℝ) : ℝ := 1 / 2 * (v1 + v2) * (|v2 - v1| / A)

/-- `sigma`: steering-kinodynamic.cc:257-263. -/
noncomputable def sigma (A p1 p2 v1 v2 : ℝ) : ℝ :=
  if sgnenum (p2 - p1 - deltaPacc A v1 v2) = 0 then sgn (p2 - p1) else sgnenum (p2 - p1 - deltaPacc A v1 v2)

/-- Greatest solution of the quadratic equation (13): steering-kinodynamic.cc:278-289. -/
noncomputable def solve13 (a1 p1 p2 v1 v2 : ℝ) : ℝ :=
  let a := a1
  let b := 2 * v1
  let c := (1 / 2 * (v1 + v2) * (v2 - v1) / (-a1)) - (p2 - p1)
  let q := -(1 / 2) * (b + sgn b * √(b * b - 4 * a * c))
  let x1 := if a ≠ 0 then q / a else 0
  let x2 := if q ≠ 0 then c / q else 0
  max x1 x2

/-- The phases for a given `sigma`: steering-kinodynamic.cc:264-318. -/
noncomputable def segments (A V s p1 p2 v1 v2 : ℝ) : Traj :=
  let a1 := s * A
  let a2 := -a1
  let vLim := s * V
  let x := solve13 a1 p1 p2 v1 v2
  let minT1 := max 0 (-((v2 - v1) / a2))
  if minT1 ≤ x ∧ ¬ V < |v1 + x * a1| then ⟨a1, x, 0, (v2 - v1) / a2 + x, vLim⟩
  else ⟨a1, (vLim - v1) / a1, (v1 * v1 + v2 * v2 - 2 * vLim * vLim) / (2 * vLim * a1) + (p2 - p1) / vLim, (v2 - vLim) / a2, vLim⟩

/-- The duration. -/
noncomputable def Traj.T (t : Traj) : ℝ := t.t1 + t.tv + t.t2

/-- `Kinodynamic::computeMinTime`, the value returned: steering-kinodynamic.cc:244-325, 388. -/
noncomputable def computeMinTime (A V e p1 p2 v1 v2 : ℝ) : ℝ :=
  if |p2 - p1| < e ∧ |v2 - v1| < e then 0 else (segments A V (sigma A p1 p2 v1 v2) p1 p2 v1 v2).T

/-! ## Spec: uniformly accelerated motion -/

/-- State (position, velocity) after a phase of duration `τ` and acceleration `a`. -/
noncomputable def phase (x : ℝ × ℝ) (τ a : ℝ) : ℝ × ℝ := (x.1 + x.2 * τ + a * τ ^ 2 / 2, x.2 + a * τ)

/-- State after the three phases. -/
noncomputable def Traj.final (t : Traj) (x : ℝ × ℝ) : ℝ × ℝ := phase (phase (phase x t.t1 t.a1) t.tv 0) t.t2 (-t.a1)

/-- The trajectory goes from `p1, v1` to `p2, v2` within the bounds: phases are in the future, acceleration and velocities at the ends of phases
(hence everywhere) are within the bounds, and the speed of the constant velocity phase is `vLim`. -/
structure Reaches (A V p1 p2 v1 v2 : ℝ) (t : Traj) : Prop where
  t1 : 0 ≤ t.t1
  tv : 0 ≤ t.tv
  t2 : 0 ≤ t.t2
  acc : |t.a1| ≤ A
  vel : |v1 + t.a1 * t.t1| ≤ V
  lim : 0 < t.tv → v1 + t.a1 * t.t1 = t.vLim
  target : t.final (p1, v1) = (p2, v2)

/-! ## The phases computed -/

/-- Square of the greatest velocity of the two phase trajectory. -/
noncomputable def disc (A s p1 p2 v1 v2 : ℝ) : ℝ := (v1 ^ 2 + v2 ^ 2) / 2 + s * A * (p2 - p1)

theorem disc_ge {A s p1 p2 v1 v2 : ℝ} (hA : 0 < A) (hs : s = 1 ∨ s = -1) (h : s * deltaPacc A v1 v2 ≤ s * (p2 - p1)) :
    v1 ^ 2 ≤ disc A s p1 p2 v1 v2 ∧ s * v2 ≤ s * v1 ∨ v2 ^ 2 ≤ disc A s p1 p2 v1 v2 ∧ s * v1 ≤ s * v2 := by
  have h2 : s * (1 / 2 * (v1 + v2) * |v2 - v1|) ≤ s * A * (p2 - p1) := by
    have := mul_le_mul_of_nonneg_right h hA.le
    unfold deltaPacc at this
    have e : s * (1 / 2 * (v1 + v2) * (|v2 - v1| / A)) * A = s * (1 / 2 * (v1 + v2) * |v2 - v1|) := by field_simp
    rw [e] at this
    linarith
  unfold disc
  rcases hs with rfl | rfl
  · by_cases hv : v1 ≤ v2
    · right
      rw [abs_of_nonneg (by linarith)] at h2
      exact ⟨by nlinarith, by linarith⟩
    · left
      rw [abs_of_nonpos (by linarith)] at h2
      exact ⟨by nlinarith, by linarith⟩
  · by_cases hv : v1 ≤ v2
    · left
      rw [abs_of_nonneg (by linarith)] at h2
      exact ⟨by nlinarith, by linarith⟩
    · right
      rw [abs_of_nonpos (by linarith)] at h2
      exact ⟨by nlinarith, by linarith⟩

theorem sqrt_disc_ge {A s p1 p2 v1 v2 : ℝ} (hA : 0 < A) (hs : s = 1 ∨ s = -1) (h : s * deltaPacc A v1 v2 ≤ s * (p2 - p1)) :
    0 ≤ disc A s p1 p2 v1 v2 ∧ s * v1 ≤ √(disc A s p1 p2 v1 v2) ∧ s * v2 ≤ √(disc A s p1 p2 v1 v2) := by
  have hsq : ∀ v, (s * v) ^ 2 = v ^ 2 := by intro v; rcases hs with rfl | rfl <;> ring
  rcases disc_ge hA hs h with ⟨h1, h2⟩ | ⟨h1, h2⟩
  · have h3 : s * v1 ≤ √(disc A s p1 p2 v1 v2) := Real.le_sqrt_of_sq_le (by rw [hsq]; exact h1)
    exact ⟨le_trans (sq_nonneg _) h1, h3, le_trans h2 h3⟩
  · have h3 : s * v2 ≤ √(disc A s p1 p2 v1 v2) := Real.le_sqrt_of_sq_le (by rw [hsq]; exact h1)
    exact ⟨le_trans (sq_nonneg _) h1, le_trans h2 h3, h3⟩

theorem solve13_eq {A s p1 p2 v1 v2 : ℝ} (hA : 0 < A) (hs : s = 1 ∨ s = -1) (hD : 0 ≤ disc A s p1 p2 v1 v2) :
    solve13 (s * A) p1 p2 v1 v2 = (√(disc A s p1 p2 v1 v2) - s * v1) / A := by
  have hs2 : s * s = 1 := by rcases hs with rfl | rfl <;> norm_num
  have hs0 : s ≠ 0 := by rcases hs with rfl | rfl <;> norm_num
  generalize hDe : disc A s p1 p2 v1 v2 = D at *
  set r := √D with hr
  have hr2 : r * r = D := Real.mul_self_sqrt hD
  have hr0 : 0 ≤ r := Real.sqrt_nonneg _
  have hc : (1 / 2 * (v1 + v2) * (v2 - v1) / (-(s * A))) - (p2 - p1) = s * (v1 ^ 2 - D) / A := by
    rw [← hDe]; unfold disc
    rcases hs with rfl | rfl <;> field_simp <;> ring
  have hsqrt : √(2 * v1 * (2 * v1) - 4 * (s * A) * (s * (v1 ^ 2 - D) / A)) = 2 * r := by
    have : 2 * v1 * (2 * v1) - 4 * (s * A) * (s * (v1 ^ 2 - D) / A) = (2 * r) ^ 2 := by
      have : 4 * (s * A) * (s * (v1 ^ 2 - D) / A) = 4 * (s * s) * (v1 ^ 2 - D) := by field_simp
      rw [this, hs2]; nlinarith
    rw [this, Real.sqrt_sq (by linarith)]
  have ha : s * A ≠ 0 := mul_ne_zero hs0 hA.ne'
  have hDr : v1 ^ 2 - D = (v1 - r) * (v1 + r) := by rw [← hr2]; ring
  unfold solve13
  simp only [hc, hsqrt, if_pos ha]
  by_cases hv : 0 ≤ v1
  · have hsg : sgn (2 * v1) = 1 := if_pos (by linarith)
    have hq : -(1 / 2) * (2 * v1 + sgn (2 * v1) * (2 * r)) = -(v1 + r) := by rw [hsg]; ring
    rw [hq]
    by_cases hq0 : v1 + r = 0
    · have h1 : v1 = 0 := by linarith
      have h2 : r = 0 := by linarith
      rw [h1, h2]; simp
    · have hpos : 0 < v1 + r := lt_of_le_of_ne (by linarith) (Ne.symm hq0)
      rw [if_pos (neg_ne_zero.2 hq0)]
      have e2 : s * (v1 ^ 2 - D) / A / -(v1 + r) = -(s * (v1 - r)) / A := by rw [hDr]; field_simp
      rw [e2]
      rcases hs with rfl | rfl
      · rw [max_eq_right]
        · congr 1; ring
        · rw [one_mul, div_le_div_iff_of_pos_right hA]; linarith
      · rw [max_eq_left]
        · have : (-1 * A) = -A := by ring
          rw [this, neg_div_neg_eq]; congr 1; ring
        · have : (-1 * A) = -A := by ring
          rw [this, neg_div_neg_eq, div_le_div_iff_of_pos_right hA]; linarith
  · have hv' : v1 < 0 := not_le.1 hv
    have hsg : sgn (2 * v1) = -1 := if_neg (by linarith)
    have hq : -(1 / 2) * (2 * v1 + sgn (2 * v1) * (2 * r)) = r - v1 := by rw [hsg]; ring
    have hpos : 0 < r - v1 := by linarith
    rw [hq, if_pos hpos.ne']
    have e2 : s * (v1 ^ 2 - D) / A / (r - v1) = -(s * (v1 + r)) / A := by
      rw [hDr]
      have : (v1 - r) = -(r - v1) := by ring
      rw [this]; field_simp
    rw [e2]
    rcases hs with rfl | rfl
    · rw [max_eq_left]
      · rw [one_mul]; congr 1; ring
      · rw [one_mul, one_mul, div_le_div_iff_of_pos_right hA]; linarith
    · have e3 : (r - v1) / (-1 * A) = (v1 - r) / A := by
        have : (-1 * A) = -A := by ring
        rw [this, div_neg, ← neg_div]; congr 1; ring
      rw [e3, max_eq_right]
      · congr 1; ring
      · rw [div_le_div_iff_of_pos_right hA]; linarith

/-- The phases, explicitly. -/
theorem segments_eq {A V s p1 p2 v1 v2 : ℝ} (hA : 0 < A) (hV : 0 < V) (hs : s = 1 ∨ s = -1)
    (h : s * deltaPacc A v1 v2 ≤ s * (p2 - p1)) :
    (√(disc A s p1 p2 v1 v2) ≤ V → segments A V s p1 p2 v1 v2 =
      ⟨s * A, (√(disc A s p1 p2 v1 v2) - s * v1) / A, 0, (√(disc A s p1 p2 v1 v2) - s * v2) / A, s * V⟩) ∧
    (V < √(disc A s p1 p2 v1 v2) → segments A V s p1 p2 v1 v2 =
      ⟨s * A, (V - s * v1) / A, (disc A s p1 p2 v1 v2 - V ^ 2) / (V * A), (V - s * v2) / A, s * V⟩) := by
  obtain ⟨hD, h1, h2⟩ := sqrt_disc_ge hA hs h
  have hx := solve13_eq hA hs hD
  have hs2 : s * s = 1 := by rcases hs with rfl | rfl <;> norm_num
  have hs0 : s ≠ 0 := by rcases hs with rfl | rfl <;> norm_num
  have hd2 : ∀ y : ℝ, y / (-(s * A)) = -(s * y) / A := by
    intro y; rcases hs with rfl | rfl
    · rw [one_mul, one_mul, div_neg, neg_div]
    · congr 1 <;> ring
  have hd1 : ∀ y : ℝ, y / (s * A) = (s * y) / A := by
    intro y; rcases hs with rfl | rfl
    · rw [one_mul, one_mul]
    · rw [show (-1 * A) = -A by ring, div_neg, ← neg_div]; congr 1; ring
  have hmin : max 0 (-((v2 - v1) / (-(s * A)))) ≤ (√(disc A s p1 p2 v1 v2) - s * v1) / A := by
    apply max_le
    · exact div_nonneg (by linarith) hA.le
    · rw [hd2, neg_div, neg_neg, div_le_div_iff_of_pos_right hA]; linarith
  have hpeak : v1 + (√(disc A s p1 p2 v1 v2) - s * v1) / A * (s * A) = s * √(disc A s p1 p2 v1 v2) := by
    have : (√(disc A s p1 p2 v1 v2) - s * v1) / A * (s * A) = s * √(disc A s p1 p2 v1 v2) - s * s * v1 := by field_simp
    rw [this, hs2]; ring
  have habs : |s * √(disc A s p1 p2 v1 v2)| = √(disc A s p1 p2 v1 v2) := by
    rw [abs_mul, abs_of_nonneg (Real.sqrt_nonneg _)]
    rcases hs with rfl | rfl <;> simp
  constructor
  · intro hle
    unfold segments
    simp only [hx, hpeak, habs]
    rw [if_pos ⟨hmin, not_lt.2 hle⟩]
    congr 1
    rw [hd2]
    rw [← add_div]; congr 1; ring
  · intro hlt
    unfold segments
    simp only [hx, hpeak, habs]
    rw [if_neg (fun hc => hc.2 hlt)]
    congr 1
    · rw [hd1]; congr 1
      rw [mul_sub, ← mul_assoc, hs2, one_mul]
    · have e1 : 2 * (s * V) * (s * A) = 2 * V * A := by
        have : 2 * (s * V) * (s * A) = 2 * (s * s) * V * A := by ring
        rw [this, hs2]; ring
      have e2 : 2 * (s * V) * (s * V) = 2 * V ^ 2 := by
        have : 2 * (s * V) * (s * V) = 2 * (s * s) * V ^ 2 := by ring
        rw [this, hs2]; ring
      have e3 : (p2 - p1) / (s * V) = s * (p2 - p1) / V := by
        rcases hs with rfl | rfl
        · rw [one_mul, one_mul]
        · rw [show (-1 * V) = -V by ring, div_neg, ← neg_div]; congr 1; ring
      rw [e1, e2, e3]
      unfold disc
      field_simp
      ring
    · rw [hd2]; congr 1
      rw [mul_sub, ← mul_assoc, hs2, one_mul]; ring

/-- The phases reach the target. -/
theorem segments_reaches {A V s p1 p2 v1 v2 : ℝ} (hA : 0 < A) (hV : 0 < V) (h1 : |v1| ≤ V) (h2 : |v2| ≤ V) (hs : s = 1 ∨ s = -1)
    (h : s * deltaPacc A v1 v2 ≤ s * (p2 - p1)) : Reaches A V p1 p2 v1 v2 (segments A V s p1 p2 v1 v2) := by
  obtain ⟨hD, k1, k2⟩ := sqrt_disc_ge hA hs h
  obtain ⟨e1, e2⟩ := segments_eq hA hV hs h
  have hs2 : s * s = 1 := by rcases hs with rfl | rfl <;> norm_num
  have hsa : |s| = 1 := by rcases hs with rfl | rfl <;> simp
  have hb : ∀ v, |v| ≤ V → s * v ≤ V := by
    intro v hv
    have := abs_le.1 hv
    rcases hs with rfl | rfl <;> linarith [this.1, this.2]
  have hr2 : √(disc A s p1 p2 v1 v2) ^ 2 = disc A s p1 p2 v1 v2 := Real.sq_sqrt hD
  have hr0 := Real.sqrt_nonneg (disc A s p1 p2 v1 v2)
  have hpp : s * A * (p2 - p1) = disc A s p1 p2 v1 v2 - (v1 ^ 2 + v2 ^ 2) / 2 := by unfold disc; ring
  have hp2 : p2 = p1 + s * (disc A s p1 p2 v1 v2 - (v1 ^ 2 + v2 ^ 2) / 2) / A := by
    rw [← hpp]
    have : s * (s * A * (p2 - p1)) = (s * s) * A * (p2 - p1) := by ring
    rw [this, hs2]; field_simp; ring
  by_cases hc : √(disc A s p1 p2 v1 v2) ≤ V
  · rw [e1 hc]
    generalize √(disc A s p1 p2 v1 v2) = r at *
    have hvel : v1 + s * A * ((r - s * v1) / A) = s * r := by
      have : s * A * ((r - s * v1) / A) = s * r - (s * s) * v1 := by field_simp
      rw [this, hs2]; ring
    refine ⟨div_nonneg (by simpa using k1) hA.le, le_refl _, div_nonneg (by simpa using k2) hA.le, ?_, ?_, fun h0 => absurd h0 (lt_irrefl _), ?_⟩
    · show |s * A| ≤ A
      rw [abs_mul, hsa, one_mul, abs_of_pos hA]
    · show |v1 + s * A * ((r - s * v1) / A)| ≤ V
      rw [hvel, abs_mul, hsa, one_mul, abs_of_nonneg hr0]; exact hc
    · simp only [Traj.final, phase]
      rw [hvel]
      ext
      · show _ = p2
        rw [hp2, ← hr2]
        have : s * (r ^ 2 - (v1 ^ 2 + v2 ^ 2) / 2) / A = s * r ^ 2 / A - s * (v1 ^ 2 + v2 ^ 2) / (2 * A) := by field_simp
        rw [this]
        rcases hs with rfl | rfl <;> field_simp <;> ring
      · show _ = v2
        rcases hs with rfl | rfl <;> field_simp <;> ring
  · have hc' := not_le.1 hc
    rw [e2 hc']
    have hDV : V ^ 2 < disc A s p1 p2 v1 v2 := by
      rw [← hr2]; exact pow_lt_pow_left₀ hc' hV.le two_ne_zero
    generalize disc A s p1 p2 v1 v2 = D at *
    have hvel : v1 + s * A * ((V - s * v1) / A) = s * V := by
      have : s * A * ((V - s * v1) / A) = s * V - (s * s) * v1 := by field_simp
      rw [this, hs2]; ring
    refine ⟨div_nonneg (by simpa using hb v1 h1) hA.le, div_nonneg (by linarith) (mul_pos hV hA).le, div_nonneg (by simpa using hb v2 h2) hA.le, ?_, ?_, fun _ => hvel, ?_⟩
    · show |s * A| ≤ A
      rw [abs_mul, hsa, one_mul, abs_of_pos hA]
    · show |v1 + s * A * ((V - s * v1) / A)| ≤ V
      rw [hvel, abs_mul, hsa, one_mul, abs_of_pos hV]
    · simp only [Traj.final, phase]
      rw [hvel]
      ext
      · show _ = p2
        rw [hp2]
        rcases hs with rfl | rfl <;> field_simp <;> ring
      · show _ = v2
        rcases hs with rfl | rfl <;> field_simp <;> ring

theorem sigma_cases (A p1 p2 v1 v2 : ℝ) :
    (sigma A p1 p2 v1 v2 = 1 ∨ sigma A p1 p2 v1 v2 = -1) ∧
    sigma A p1 p2 v1 v2 * deltaPacc A v1 v2 ≤ sigma A p1 p2 v1 v2 * (p2 - p1) ∧
    (p2 - p1 = deltaPacc A v1 v2 → 0 ≤ sigma A p1 p2 v1 v2 * (p2 - p1)) := by
  unfold sigma sgnenum sgn
  by_cases h1 : 0 < p2 - p1 - deltaPacc A v1 v2
  · simp only [h1, if_true, one_ne_zero, if_false]
    exact ⟨Or.inl trivial, by linarith, fun h => by linarith⟩
  · by_cases h2 : p2 - p1 - deltaPacc A v1 v2 < 0
    · simp only [h1, h2, if_true, if_false]
      rw [if_neg (by norm_num)]
      exact ⟨Or.inr rfl, by linarith, fun h => by linarith⟩
    · have h0 : p2 - p1 = deltaPacc A v1 v2 := by linarith [not_lt.1 h1, not_lt.1 h2]
      simp only [h1, h2, if_false, if_true]
      by_cases h3 : 0 ≤ p2 - p1
      · rw [if_pos h3]; exact ⟨Or.inl rfl, by linarith, fun _ => by linarith⟩
      · rw [if_neg h3]; exact ⟨Or.inr rfl, by linarith, fun _ => by linarith [not_le.1 h3]⟩

/-- C56: the trajectory of minimal time computed for a degree of freedom reaches the target position with the target velocity within the bounds,
and its duration is the time returned. -/
theorem C56_minTime {A V e p1 p2 v1 v2 : ℝ} (hA : 0 < A) (hV : 0 < V) (h1 : |v1| ≤ V) (h2 : |v2| ≤ V) (hm : ¬ (|p2 - p1| < e ∧ |v2 - v1| < e)) :
    Reaches A V p1 p2 v1 v2 (segments A V (sigma A p1 p2 v1 v2) p1 p2 v1 v2) ∧
    computeMinTime A V e p1 p2 v1 v2 = (segments A V (sigma A p1 p2 v1 v2) p1 p2 v1 v2).T := by
  obtain ⟨k1, k2, _⟩ := sigma_cases A p1 p2 v1 v2
  exact ⟨segments_reaches hA hV h1 h2 k1 k2, if_neg hm⟩

/-! ## Minimality -/

/-- Spec: a motion of duration `T` within the bounds: the velocity is Lipschitz with constant `A`. -/
structure Motion (A V p1 p2 v1 v2 T : ℝ) where
  p : ℝ → ℝ
  v : ℝ → ℝ
  nonneg : 0 ≤ T
  deriv : ∀ t, 0 ≤ t → t ≤ T → HasDerivAt p (v t) t
  lip : ∀ s t, 0 ≤ s → s ≤ t → t ≤ T → |v t - v s| ≤ A * (t - s)
  bound : ∀ t, 0 ≤ t → t ≤ T → |v t| ≤ V
  start : p 0 = p1 ∧ v 0 = v1
  target : p T = p2 ∧ v T = v2

/-- The opposite motion. -/
noncomputable def Motion.mirror {A V p1 p2 v1 v2 T : ℝ} (m : Motion A V p1 p2 v1 v2 T) : Motion A V (-p1) (-p2) (-v1) (-v2) T where
  p := fun t => -m.p t
  v := fun t => -m.v t
  nonneg := m.nonneg
  deriv := fun t h0 h1 => (m.deriv t h0 h1).neg
  lip := fun s t h0 h1 h2 => by
    have := m.lip s t h0 h1 h2
    rwa [← abs_neg, show -(-m.v t - -m.v s) = m.v t - m.v s by ring]
  bound := fun t h0 h1 => by rw [abs_neg]; exact m.bound t h0 h1
  start := by rw [m.start.1, m.start.2]; exact ⟨rfl, rfl⟩
  target := by rw [m.target.1, m.target.2]; exact ⟨rfl, rfl⟩

theorem le_of_deriv (f f' : ℝ → ℝ) (a b : ℝ) (hab : a ≤ b) (hd : ∀ t, a ≤ t → t ≤ b → HasDerivAt f (f' t) t) (hn : ∀ t, a ≤ t → t ≤ b → 0 ≤ f' t) : f a ≤ f b := by
  have hm : MonotoneOn f (Set.Icc a b) := by
    apply monotoneOn_of_deriv_nonneg (convex_Icc a b)
    · intro t ht; exact (hd t ht.1 ht.2).continuousAt.continuousWithinAt
    · intro t ht
      rw [interior_Icc] at ht
      exact (hd t ht.1.le ht.2.le).differentiableAt.differentiableWithinAt
    · intro t ht
      rw [interior_Icc] at ht
      rw [(hd t ht.1.le ht.2.le).deriv]
      exact hn t ht.1.le ht.2.le
  exact hm ⟨le_refl _, hab⟩ ⟨hab, le_refl _⟩ hab

/-- Displacement bounded by an affine bound on the velocity. -/
theorem disp_le (p v : ℝ → ℝ) (a b c k : ℝ) (hab : a ≤ b) (hd : ∀ t, a ≤ t → t ≤ b → HasDerivAt p (v t) t) (hv : ∀ t, a ≤ t → t ≤ b → v t ≤ c + k * (t - a)) :
    p b - p a ≤ c * (b - a) + k * (b - a) ^ 2 / 2 := by
  have := le_of_deriv (fun t => c * (t - a) + k * (t - a) ^ 2 / 2 - p t) (fun t => c + k * (t - a) - v t) a b hab (fun t h0 h1 => by
      have e1 : HasDerivAt (fun t : ℝ => t - a) 1 t := (hasDerivAt_id t).sub_const a
      have e2 := ((e1.const_mul c).add (((e1.fun_pow 2).const_mul k).div_const 2)).sub (hd t h0 h1)
      refine e2.congr_deriv ?_
      push_cast
      ring) (fun t h0 h1 => by linarith [hv t h0 h1])
  simp at this
  linarith

/-- What a motion can do in a given time: no more than two phases at full acceleration. -/
theorem motion_two {A V p1 p2 v1 v2 T : ℝ} (hA : 0 < A) (m : Motion A V p1 p2 v1 v2 T) :
    v1 ≤ (v1 + v2 + A * T) / 2 ∧ v2 ≤ (v1 + v2 + A * T) / 2 ∧ disc A 1 p1 p2 v1 v2 ≤ ((v1 + v2 + A * T) / 2) ^ 2 := by
  have hl := abs_le.1 (m.lip 0 T le_rfl m.nonneg le_rfl)
  rw [m.start.2, m.target.2] at hl
  have hw1 : v1 ≤ (v1 + v2 + A * T) / 2 := by linarith [hl.1]
  have hw2 : v2 ≤ (v1 + v2 + A * T) / 2 := by linarith [hl.2]
  refine ⟨hw1, hw2, ?_⟩
  generalize hw : (v1 + v2 + A * T) / 2 = w at *
  have hτ0 : 0 ≤ (w - v1) / A := div_nonneg (by linarith) hA.le
  have hτ1 : (w - v1) / A ≤ T := by rw [div_le_iff₀ hA]; linarith
  have d1 := disp_le m.p m.v 0 ((w - v1) / A) v1 A hτ0 (fun t h0 h1 => m.deriv t h0 (le_trans h1 hτ1)) (fun t h0 h1 => by
    have := (abs_le.1 (m.lip 0 t le_rfl h0 (le_trans h1 hτ1))).2
    rw [m.start.2] at this; linarith)
  have d2 := disp_le m.p m.v ((w - v1) / A) T w (-A) hτ1 (fun t h0 h1 => m.deriv t (le_trans hτ0 h0) h1) (fun t h0 h1 => by
    have := (abs_le.1 (m.lip t T (le_trans hτ0 h0) h1 le_rfl)).1
    rw [m.target.2] at this
    have e : w + -A * (t - (w - v1) / A) = v2 + A * (T - t) := by
      have : A * ((w - v1) / A) = w - v1 := by field_simp
      nlinarith
    rw [e]; linarith)
  rw [m.start.1] at d1
  rw [m.target.1] at d2
  have hT : T - (w - v1) / A = (w - v2) / A := by
    rw [sub_eq_iff_eq_add, ← add_div, eq_div_iff hA.ne']
    linarith
  rw [hT] at d2
  have : p2 - p1 ≤ (2 * w ^ 2 - v1 ^ 2 - v2 ^ 2) / (2 * A) := by
    have e : v1 * ((w - v1) / A - 0) + A * ((w - v1) / A - 0) ^ 2 / 2 + (w * ((w - v2) / A) + -A * ((w - v2) / A) ^ 2 / 2) =
        (2 * w ^ 2 - v1 ^ 2 - v2 ^ 2) / (2 * A) := by field_simp; ring
    linarith
  unfold disc
  rw [le_div_iff₀ (by linarith)] at this
  nlinarith

/-- With the limit of velocity. -/
theorem motion_three {A V p1 p2 v1 v2 T : ℝ} (hA : 0 < A) (m : Motion A V p1 p2 v1 v2 T) (hV : V ≤ (v1 + v2 + A * T) / 2) :
    p2 - p1 ≤ V * T - ((V - v1) ^ 2 + (V - v2) ^ 2) / (2 * A) := by
  have b1 := (abs_le.1 (m.bound 0 le_rfl m.nonneg)).2
  have b2 := (abs_le.1 (m.bound T m.nonneg le_rfl)).2
  rw [m.start.2] at b1
  rw [m.target.2] at b2
  have hα0 : 0 ≤ (V - v1) / A := div_nonneg (by linarith) hA.le
  have hβ0 : 0 ≤ (V - v2) / A := div_nonneg (by linarith) hA.le
  have hsum : (V - v1) / A ≤ T - (V - v2) / A := by
    have : (V - v1) / A + (V - v2) / A ≤ T := by rw [← add_div, div_le_iff₀ hA]; linarith
    linarith
  generalize hα : (V - v1) / A = α at *
  generalize hβ : (V - v2) / A = β at *
  have d1 := disp_le m.p m.v 0 α v1 A hα0 (fun t h0 h1 => m.deriv t h0 (by linarith)) (fun t h0 h1 => by
    have := (abs_le.1 (m.lip 0 t le_rfl h0 (by linarith))).2
    rw [m.start.2] at this; linarith)
  have d2 := disp_le m.p m.v α (T - β) V 0 hsum (fun t h0 h1 => m.deriv t (by linarith) (by linarith)) (fun t h0 h1 => by
    have := (abs_le.1 (m.bound t (by linarith) (by linarith))).2
    linarith)
  have hAβ : A * β = V - v2 := by rw [← hβ]; field_simp
  have hAα : A * α = V - v1 := by rw [← hα]; field_simp
  have d3 := disp_le m.p m.v (T - β) T V (-A) (by linarith) (fun t h0 h1 => m.deriv t (by linarith) h1) (fun t h0 h1 => by
    have := (abs_le.1 (m.lip t T (by linarith) h1 le_rfl)).1
    rw [m.target.2] at this
    nlinarith)
  rw [m.start.1] at d1
  rw [m.target.1] at d3
  have e : ((V - v1) ^ 2 + (V - v2) ^ 2) / (2 * A) = (A * α ^ 2 + A * β ^ 2) / 2 := by
    rw [← hAα, ← hAβ]; field_simp
  rw [e]
  nlinarith

theorem min_aux {A V p1 p2 v1 v2 T : ℝ} (hA : 0 < A) (hV : 0 < V) (h : deltaPacc A v1 v2 ≤ p2 - p1) (h1 : |v1| ≤ V)
    (heq : p2 - p1 = deltaPacc A v1 v2 → 0 ≤ v1 ∨ 0 ≤ v2) (m : Motion A V p1 p2 v1 v2 T) : (segments A V 1 p1 p2 v1 v2).T ≤ T := by
  have h' : (1 : ℝ) * deltaPacc A v1 v2 ≤ 1 * (p2 - p1) := by linarith
  obtain ⟨hD, k1, k2⟩ := sqrt_disc_ge hA (Or.inl rfl) h'
  rw [one_mul] at k1 k2
  obtain ⟨e1, e2⟩ := segments_eq (V := V) hA hV (Or.inl rfl) h'
  obtain ⟨m1, m2, m3⟩ := motion_two hA m
  have hr2 : √(disc A 1 p1 p2 v1 v2) ^ 2 = disc A 1 p1 p2 v1 v2 := Real.sq_sqrt hD
  have hr0 := Real.sqrt_nonneg (disc A 1 p1 p2 v1 v2)
  by_cases hc : √(disc A 1 p1 p2 v1 v2) ≤ V
  · rw [e1 hc]
    show (√(disc A 1 p1 p2 v1 v2) - 1 * v1) / A + 0 + (√(disc A 1 p1 p2 v1 v2) - 1 * v2) / A ≤ T
    have hgoal : √(disc A 1 p1 p2 v1 v2) ≤ (v1 + v2 + A * T) / 2 := by
      by_cases hw : 0 ≤ (v1 + v2 + A * T) / 2
      · exact Real.sqrt_le_iff.2 ⟨hw, m3⟩
      · exfalso
        have hw' := not_le.1 hw
        have hv1 : v1 < 0 := by linarith
        have hv2 : v2 < 0 := by linarith
        -- then the direct acceleration is the only possibility
        have hne : p2 - p1 ≠ deltaPacc A v1 v2 := by
          intro he
          rcases heq he with h | h <;> linarith
        have hlt : deltaPacc A v1 v2 < p2 - p1 := lt_of_le_of_ne h (Ne.symm hne)
        have hl2 : 1 / 2 * (v1 + v2) * |v2 - v1| < A * (p2 - p1) := by
          have := mul_lt_mul_of_pos_left hlt hA
          unfold deltaPacc at this
          have e : A * (1 / 2 * (v1 + v2) * (|v2 - v1| / A)) = 1 / 2 * (v1 + v2) * |v2 - v1| := by field_simp
          rw [e] at this; exact this
        unfold disc at m3
        by_cases hv : v1 ≤ v2
        · rw [abs_of_nonneg (by linarith)] at hl2
          nlinarith
        · rw [abs_of_nonpos (by linarith)] at hl2
          nlinarith
    rw [add_zero, ← add_div, div_le_iff₀ hA]
    linarith
  · have hc' := not_le.1 hc
    rw [e2 hc']
    show (V - 1 * v1) / A + (disc A 1 p1 p2 v1 v2 - V ^ 2) / (V * A) + (V - 1 * v2) / A ≤ T
    have hDV : V ^ 2 < disc A 1 p1 p2 v1 v2 := by
      rw [← hr2]; exact pow_lt_pow_left₀ hc' hV.le two_ne_zero
    have hwV : V ≤ (v1 + v2 + A * T) / 2 := by
      by_contra hcon
      have hcon' := not_le.1 hcon
      have := abs_le.1 h1
      have : ((v1 + v2 + A * T) / 2) ^ 2 ≤ V ^ 2 := by
        apply sq_le_sq'
        · linarith [this.1]
        · linarith
      linarith
    have m4 := motion_three hA m hwV
    have e : (V - 1 * v1) / A + (disc A 1 p1 p2 v1 v2 - V ^ 2) / (V * A) + (V - 1 * v2) / A =
        (p2 - p1 + ((V - v1) ^ 2 + (V - v2) ^ 2) / (2 * A)) / V := by
      unfold disc; field_simp; ring
    rw [e, div_le_iff₀ hV]
    linarith

/-- Reversing the axis. -/
theorem segments_mirror_T {A V p1 p2 v1 v2 : ℝ} (hA : 0 < A) (hV : 0 < V) (h : -1 * deltaPacc A v1 v2 ≤ -1 * (p2 - p1)) :
    (segments A V (-1) p1 p2 v1 v2).T = (segments A V 1 (-p1) (-p2) (-v1) (-v2)).T := by
  have hd : deltaPacc A (-v1) (-v2) = -deltaPacc A v1 v2 := by
    unfold deltaPacc
    rw [show -v2 - -v1 = -(v2 - v1) by ring, abs_neg]; ring
  have h' : (1 : ℝ) * deltaPacc A (-v1) (-v2) ≤ 1 * (-p2 - -p1) := by rw [hd]; linarith
  have hdisc : disc A 1 (-p1) (-p2) (-v1) (-v2) = disc A (-1) p1 p2 v1 v2 := by unfold disc; ring
  obtain ⟨e1, e2⟩ := segments_eq (V := V) hA hV (Or.inr rfl) h
  obtain ⟨f1, f2⟩ := segments_eq (V := V) hA hV (Or.inl rfl) h'
  rw [hdisc] at f1 f2
  by_cases hc : √(disc A (-1) p1 p2 v1 v2) ≤ V
  · rw [e1 hc, f1 hc]; simp [Traj.T]
  · rw [e2 (not_le.1 hc), f2 (not_le.1 hc)]; simp [Traj.T]

/-- C79: no motion within the bounds is faster than the time computed by the steering method. -/
theorem C79_minTime {A V e p1 p2 v1 v2 T : ℝ} (hA : 0 < A) (hV : 0 < V) (h1 : |v1| ≤ V) (he : 0 < e) (m : Motion A V p1 p2 v1 v2 T) :
    computeMinTime A V e p1 p2 v1 v2 ≤ T := by
  unfold computeMinTime
  by_cases hm : |p2 - p1| < e ∧ |v2 - v1| < e
  · rw [if_pos hm]; exact m.nonneg
  · rw [if_neg hm]
    obtain ⟨k1, k2, k3⟩ := sigma_cases A p1 p2 v1 v2
    have hnz : p2 - p1 = deltaPacc A v1 v2 → v1 ≠ v2 := by
      intro h0 h3
      apply hm
      rw [h0, h3]
      unfold deltaPacc
      simp [he]
    have key : ∀ x : ℝ, 0 ≤ (v1 + v2) * |v2 - v1| * x → v1 ≠ v2 → 0 < x → 0 ≤ v1 ∨ 0 ≤ v2 := by
      intro x hx hne hx0
      by_contra hcon
      push Not at hcon
      have : 0 < |v2 - v1| := abs_pos.2 (sub_ne_zero.2 (Ne.symm hne))
      have h4 : (v1 + v2) * |v2 - v1| < 0 := mul_neg_of_neg_of_pos (by linarith [hcon.1, hcon.2]) this
      have := mul_neg_of_neg_of_pos h4 hx0
      linarith
    have hAi : 0 < 1 / (2 * A) := by positivity
    have hde : deltaPacc A v1 v2 = (v1 + v2) * |v2 - v1| * (1 / (2 * A)) := by unfold deltaPacc; field_simp
    rcases k1 with hs | hs
    · rw [hs] at k2 k3 ⊢
      exact min_aux hA hV (by linarith) h1 (fun h0 => key _ (by rw [← hde, ← h0]; linarith [k3 h0]) (hnz h0) hAi) m
    · rw [hs] at k2 k3 ⊢
      rw [segments_mirror_T hA hV k2]
      have hd : deltaPacc A (-v1) (-v2) = -deltaPacc A v1 v2 := by
        unfold deltaPacc
        rw [show -v2 - -v1 = -(v2 - v1) by ring, abs_neg]; ring
      refine min_aux hA hV (by rw [hd]; linarith) (by rw [abs_neg]; exact h1) (fun h0 => ?_) m.mirror
      have h0' : p2 - p1 = deltaPacc A v1 v2 := by rw [hd] at h0; linarith
      by_contra hcon
      push Not at hcon
      have h4 := k3 h0'
      rw [h0', hde] at h4
      have : 0 < |v2 - v1| := abs_pos.2 (sub_ne_zero.2 (Ne.symm (hnz h0')))
      have h5 : 0 < (v1 + v2) * |v2 - v1| * (1 / (2 * A)) := by
        have : 0 < v1 + v2 := by linarith [hcon.1, hcon.2]
        positivity
      linarith

/-! ## The distance -/

/-- `KinodynamicDistance::computeMinTime`: src/kinodynamic-distance.cc:106-182.  Differences with the steering method: `sigma` is never zero, and
`c / q` is computed also for `q = 0`; then `c` is null too, the quotient is NaN and `std::max` returns `x1`, which is zero. -/
noncomputable def distanceTime (A V e p1 p2 v1 v2 : ℝ) : ℝ :=
  if |p2 - p1| < e ∧ |v2 - v1| < e then 0 else (segments A V (sgn (p2 - p1 - deltaPacc A v1 v2)) p1 p2 v1 v2).T

/-- `impl_distance`: kinodynamic-distance.cc:186-213, for a list of degrees of freedom (three in the code): positions and velocities. -/
noncomputable def kinoDistance (A V e : ℝ) (l : List (ℝ × ℝ × ℝ × ℝ)) : ℝ :=
  l.foldl (fun Tmax x => if Tmax < distanceTime A V e x.1 x.2.1 x.2.2.1 x.2.2.2 then distanceTime A V e x.1 x.2.1 x.2.2.1 x.2.2.2 else Tmax) 0

theorem sgn_cases (x : ℝ) : (sgn x = 1 ∨ sgn x = -1) ∧ 0 ≤ sgn x * x := by
  unfold sgn
  by_cases h : 0 ≤ x
  · rw [if_pos h]; exact ⟨Or.inl rfl, by linarith⟩
  · rw [if_neg h]; exact ⟨Or.inr rfl, by linarith [not_le.1 h]⟩

/-- C79 (partial): the distance along a degree of freedom is the duration of a motion that reaches the target, and no motion is faster when the
displacement is not the one of a direct acceleration.  Missing: this case (see the counterexample). -/
theorem C79_distance_partial {A V e p1 p2 v1 v2 : ℝ} (hA : 0 < A) (hV : 0 < V) (h1 : |v1| ≤ V) (h2 : |v2| ≤ V)
    (hm : ¬ (|p2 - p1| < e ∧ |v2 - v1| < e)) :
    (∃ t : Traj, Reaches A V p1 p2 v1 v2 t ∧ distanceTime A V e p1 p2 v1 v2 = t.T) ∧
    (p2 - p1 ≠ deltaPacc A v1 v2 → ∀ T, Motion A V p1 p2 v1 v2 T → distanceTime A V e p1 p2 v1 v2 ≤ T) := by
  obtain ⟨k1, k2⟩ := sgn_cases (p2 - p1 - deltaPacc A v1 v2)
  have k3 : sgn (p2 - p1 - deltaPacc A v1 v2) * deltaPacc A v1 v2 ≤ sgn (p2 - p1 - deltaPacc A v1 v2) * (p2 - p1) := by linarith
  have hT : distanceTime A V e p1 p2 v1 v2 = (segments A V (sgn (p2 - p1 - deltaPacc A v1 v2)) p1 p2 v1 v2).T := if_neg hm
  refine ⟨⟨_, segments_reaches hA hV h1 h2 k1 k3, hT⟩, fun hne T m => ?_⟩
  rw [hT]
  rcases k1 with hs | hs
  · rw [hs] at k3 ⊢
    exact min_aux hA hV (by linarith) h1 (fun h0 => absurd h0 hne) m
  · rw [hs] at k3 ⊢
    rw [segments_mirror_T hA hV k3]
    have hd : deltaPacc A (-v1) (-v2) = -deltaPacc A v1 v2 := by
      unfold deltaPacc
      rw [show -v2 - -v1 = -(v2 - v1) by ring, abs_neg]; ring
    exact min_aux hA hV (by rw [hd]; linarith) (by rw [abs_neg]; exact h1) (fun h0 => absurd (by rw [hd] at h0; linarith) hne) m.mirror

/-- C79: for a direct acceleration with negative velocities, the distance is not the minimal time: 5 instead of 1. -/
theorem C79_distance_counterexample : distanceTime 1 2 (1 / 1000) 0 (-3 / 2) (-1) (-2) = 5 ∧
    Nonempty (Motion 1 2 0 (-3 / 2) (-1) (-2) 1) := by
  constructor
  · unfold distanceTime
    rw [if_neg (by norm_num)]
    have hdp : deltaPacc 1 (-1) (-2) = -3 / 2 := by norm_num [deltaPacc]
    have hsg : sgn (-3 / 2 - 0 - deltaPacc 1 (-1) (-2)) = 1 := by rw [hdp]; norm_num [sgn]
    rw [hsg]
    have hdisc : disc 1 1 0 (-3 / 2) (-1) (-2) = 1 := by norm_num [disc]
    have := (segments_eq (A := 1) (V := 2) (s := 1) (p1 := 0) (p2 := -3 / 2) (v1 := -1) (v2 := -2) one_pos two_pos (Or.inl rfl) (by rw [hdp]; norm_num)).1
      (by rw [hdisc]; norm_num)
    rw [this, hdisc]
    norm_num [Traj.T]
  · refine ⟨⟨fun t => -t - t ^ 2 / 2, fun t => -1 - t, zero_le_one, fun t _ _ => ?_, fun s t _ h _ => ?_, fun t h0 h1 => ?_, by norm_num, by norm_num⟩⟩
    · have := ((hasDerivAt_id t).neg).sub (((hasDerivAt_id t).fun_pow 2).div_const 2)
      refine this.congr_deriv ?_
      simp
    · rw [abs_le]; constructor <;> linarith
    · rw [abs_le]; constructor <;> linarith

/-- C79: the distance is the greatest time of the degrees of freedom. -/
theorem C79_max (A V e : ℝ) (l : List (ℝ × ℝ × ℝ × ℝ)) :
    (∀ x ∈ l, distanceTime A V e x.1 x.2.1 x.2.2.1 x.2.2.2 ≤ kinoDistance A V e l) ∧ 0 ≤ kinoDistance A V e l ∧
    (kinoDistance A V e l = 0 ∨ ∃ x ∈ l, kinoDistance A V e l = distanceTime A V e x.1 x.2.1 x.2.2.1 x.2.2.2) := by
  unfold kinoDistance
  have key : ∀ (l : List (ℝ × ℝ × ℝ × ℝ)) (f : ℝ × ℝ × ℝ × ℝ → ℝ) (M : ℝ),
      (∀ x ∈ l, f x ≤ l.foldl (fun Tmax x => if Tmax < f x then f x else Tmax) M) ∧ M ≤ l.foldl (fun Tmax x => if Tmax < f x then f x else Tmax) M ∧
      (l.foldl (fun Tmax x => if Tmax < f x then f x else Tmax) M = M ∨ ∃ x ∈ l, l.foldl (fun Tmax x => if Tmax < f x then f x else Tmax) M = f x) := by
    intro l f
    induction l with
    | nil => intro M; simp
    | cons y l ih =>
      intro M
      rw [List.foldl_cons]
      by_cases h : M < f y
      · rw [if_pos h]
        obtain ⟨i1, i2, i3⟩ := ih (f y)
        refine ⟨fun x hx => ?_, by linarith, Or.inr ?_⟩
        · rcases List.mem_cons.1 hx with rfl | hx
          · exact i2
          · exact i1 x hx
        · rcases i3 with i3 | ⟨x, hx, i3⟩
          · exact ⟨y, by simp, i3⟩
          · exact ⟨x, by simp [hx], i3⟩
      · rw [if_neg h]
        obtain ⟨i1, i2, i3⟩ := ih M
        refine ⟨fun x hx => ?_, i2, ?_⟩
        · rcases List.mem_cons.1 hx with rfl | hx
          · linarith [not_lt.1 h]
          · exact i1 x hx
        · rcases i3 with i3 | ⟨x, hx, i3⟩
          · exact Or.inl i3
          · exact Or.inr ⟨x, by simp [hx], i3⟩
  exact key l _ 0

/-- Data to which the theorems apply: from rest to rest, velocity limit reached. -/
example : |(0 : ℝ)| ≤ 1 ∧ ¬ (|(3 : ℝ) - 0| < 1 / 1000 ∧ |(0 : ℝ) - 0| < 1 / 1000) ∧ computeMinTime 1 1 (1 / 1000) 0 3 0 0 = 4 := by
  refine ⟨by norm_num, by norm_num, ?_⟩
  unfold computeMinTime
  rw [if_neg (by norm_num)]
  have hdp : deltaPacc 1 0 0 = 0 := by norm_num [deltaPacc]
  have hsg : sigma 1 0 3 0 0 = 1 := by simp [sigma, sgnenum, hdp]
  have hdisc : disc 1 1 0 3 0 0 = 3 := by norm_num [disc]
  rw [hsg, (segments_eq (A := 1) (V := 1) (s := 1) (p1 := 0) (p2 := 3) (v1 := 0) (v2 := 0) one_pos one_pos (Or.inl rfl) (by rw [hdp]; norm_num)).2
    (by rw [hdisc]; exact Real.lt_sqrt_of_sq_lt (by norm_num)), hdisc]
  norm_num [Traj.T]

end Verif.Kino
