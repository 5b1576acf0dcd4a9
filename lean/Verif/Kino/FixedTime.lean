import Verif.Kino.MinTime
set_option linter.unusedSectionVars false

/-!
# Kinodynamic steering: trajectory of given duration of one degree of freedom (C56)
-/
namespace Verif.Kino

/-- Interval of infeasible durations: steering-kinodynamic.cc:326-387.  `none` stands for the interval from infinity to zero, to which no time
belongs. -/
noncomputable def infeasible (A V p1 p2 v1 v2 : ℝ) : Option (ℝ × ℝ) :=
  let s := sigma A p1 p2 v1 v2
  let a1 := s * A
  if v1 * v2 ≤ 0 ∨ a1 * v1 < 0 then none
  else if |(|v1| / A) * v1 / 2 + (|v2| / A) * v2 / 2| < |p2 - p1| then none
  else
    let ai := -a1
    let a2 := a1
    let vLim := -(s * V)
    let bi := 2 * v1
    let ci := (1 / 2 * (v1 + v2) * (v2 - v1) / a2) - (p2 - p1)
    let deltai := bi * bi - 4 * ai * ci
    let x1i := (-bi + √deltai) / (2 * ai)
    let x2i := (-bi - √deltai) / (2 * ai)
    let xi := max x1i x2i
    let xm := min x1i x2i
    let first := (v2 - v1) / a2 + xm + xm
    let minT1 := -(max 0 (-((v2 - v1) / (-a1))))
    let x := solve13 a1 p1 p2 v1 v2
    let two := decide (max 0 (-((v2 - v1) / (-a1))) ≤ x ∧ ¬ V < |v1 + x * a1|)
    let t1 := if minT1 < xi then xi else xm
    if (minT1 < xi ∨ two = true) ∧ ¬ V < |v1 + t1 * ai| then some (first, t1 + 0 + ((v2 - v1) / a2 + t1))
    else some (first, (vLim - v1) / ai + ((v1 * v1 + v2 * v2 - 2 * vLim * vLim) / (2 * vLim * ai) + (p2 - p1) / vLim) + (v2 - vLim) / a2)

/-- `q` of the quadratic equation (20): steering-kinodynamic.cc:514-517. -/
noncomputable def q20 (T p1 p2 v1 v2 : ℝ) : ℝ :=
  let a := T * T
  let b := 2 * T * (v1 + v2) - 4 * (p2 - p1)
  let c := -((v2 - v1) * (v2 - v1))
  let q := -(1 / 2) * (b + sgn b * √(b * b - 4 * a * c))
  q

/-- The solution of the quadratic equation (20), before it is clamped: steering-kinodynamic.cc:518-541. -/
noncomputable def solve20 (A e T p1 p2 v1 v2 : ℝ) : ℝ :=
  let a := T * T
  let c := -((v2 - v1) * (v2 - v1))
  let q := q20 T p1 p2 v1 v2
  let x1 := if e < |a| then q / a else sigma A p1 p2 v1 v2 * A
  let x2 := if e < |q| then c / q else sigma A p1 p2 v1 v2 * A
  if |x2| < |x1| then x1 else x2

/-- steering-kinodynamic.cc:542-544, 569-572. -/
noncomputable def clamp (A a1 : ℝ) : ℝ := if A < |a1| then A * sgn a1 else a1

/-- `Kinodynamic::fixedTimeTrajectory` without the vertical axis: steering-kinodynamic.cc:398-426, 511-580. -/
noncomputable def fixedTime (A V e T p1 p2 v1 v2 : ℝ) : Traj :=
  if |v2 - v1| < e ∧ |p2 - p1| < e then ⟨0, 0, T, 0, 0⟩
  else
    let a1 := clamp A (solve20 A e T p1 p2 v1 v2)
    let t1 := 1 / 2 * ((v2 - v1) / a1 + T)
    let vLim := sgn a1 * V
    if |v1 + t1 * a1| ≤ V then ⟨a1, t1, 0, T - t1, vLim⟩
    else
      let a3 := clamp A (if e < |q20 T p1 p2 v1 v2| then ((vLim - v1) * (vLim - v1) + (vLim - v2) * (vLim - v2)) / (2 * (vLim * T - (p2 - p1)))
        else sigma A p1 p2 v1 v2 * A)
      ⟨a3, (vLim - v1) / a3, (v1 * v1 + v2 * v2 - 2 * vLim * vLim) / (2 * vLim * a3) + (p2 - p1) / vLim, (v2 - vLim) / (-a3), vLim⟩

/-! ## The equation (20) -/

theorem q20_abs (T p1 p2 v1 v2 : ℝ) :
    q20 T p1 p2 v1 v2 = -(sgn (2 * T * (v1 + v2) - 4 * (p2 - p1))) *
      ((|2 * T * (v1 + v2) - 4 * (p2 - p1)| + √((2 * T * (v1 + v2) - 4 * (p2 - p1)) ^ 2 + 4 * T ^ 2 * (v2 - v1) ^ 2)) / 2) := by
  unfold q20
  simp only
  rw [show (2 * T * (v1 + v2) - 4 * (p2 - p1)) * (2 * T * (v1 + v2) - 4 * (p2 - p1)) - 4 * (T * T) * -((v2 - v1) * (v2 - v1)) =
    (2 * T * (v1 + v2) - 4 * (p2 - p1)) ^ 2 + 4 * T ^ 2 * (v2 - v1) ^ 2 by ring]
  generalize 2 * T * (v1 + v2) - 4 * (p2 - p1) = b
  unfold sgn
  by_cases hb : 0 ≤ b
  · rw [if_pos hb, abs_of_nonneg hb]; ring
  · rw [if_neg hb, abs_of_neg (not_le.1 hb)]; ring

/-- Sign of the acceleration. -/
noncomputable def sgn20 (T p1 p2 v1 v2 : ℝ) : ℝ := if 2 * T * (v1 + v2) - 4 * (p2 - p1) ≤ 0 then 1 else -1

/-- Magnitude of the acceleration. -/
noncomputable def mag20 (T p1 p2 v1 v2 : ℝ) : ℝ :=
  (|2 * T * (v1 + v2) - 4 * (p2 - p1)| + √((2 * T * (v1 + v2) - 4 * (p2 - p1)) ^ 2 + 4 * T ^ 2 * (v2 - v1) ^ 2)) / (2 * T ^ 2)

theorem sgn20_cases (T p1 p2 v1 v2 : ℝ) : (sgn20 T p1 p2 v1 v2 = 1 ∨ sgn20 T p1 p2 v1 v2 = -1) ∧
    2 * T * (v1 + v2) - 4 * (p2 - p1) = -sgn20 T p1 p2 v1 v2 * |2 * T * (v1 + v2) - 4 * (p2 - p1)| := by
  unfold sgn20
  by_cases h : 2 * T * (v1 + v2) - 4 * (p2 - p1) ≤ 0
  · rw [if_pos h, abs_of_nonpos h]; exact ⟨Or.inl rfl, by ring⟩
  · rw [if_neg h, abs_of_pos (not_le.1 h)]; exact ⟨Or.inr rfl, by ring⟩

theorem solve20_eq {A e T p1 p2 v1 v2 : ℝ} (he : 0 ≤ e) (hT : 0 < T) (hTe : e < T * T) (hq : e < |q20 T p1 p2 v1 v2|) :
    solve20 A e T p1 p2 v1 v2 = sgn20 T p1 p2 v1 v2 * mag20 T p1 p2 v1 v2 ∧ 0 < mag20 T p1 p2 v1 v2 := by
  have hTT : e < |T * T| := by rw [abs_of_pos (by positivity)]; exact hTe
  unfold solve20
  simp only [if_pos hTT, if_pos hq]
  have hqe := q20_abs T p1 p2 v1 v2
  unfold sgn20 mag20
  generalize hbe : 2 * T * (v1 + v2) - 4 * (p2 - p1) = b at *
  generalize hde : v2 - v1 = δ at *
  set S := √(b ^ 2 + 4 * T ^ 2 * δ ^ 2) with hS
  have hS0 : 0 ≤ S := Real.sqrt_nonneg _
  have hS2 : S ^ 2 = b ^ 2 + 4 * T ^ 2 * δ ^ 2 := Real.sq_sqrt (by positivity)
  have hSb : |b| ≤ S := Real.abs_le_sqrt (by nlinarith [sq_nonneg (T * δ)])
  have hm : 0 < (|b| + S) / 2 := by
    have h0 : (|b| + S) / 2 ≠ 0 := by
      intro h0
      rw [hqe, h0, mul_zero, abs_zero] at hq
      linarith
    exact lt_of_le_of_ne (by positivity) (Ne.symm h0)
  have hsum : 0 < |b| + S := by linarith
  have hmag : 0 < (|b| + S) / (2 * T ^ 2) := by positivity
  refine ⟨?_, hmag⟩
  have hx1 : q20 T p1 p2 v1 v2 / (T * T) = -(sgn b) * ((|b| + S) / (2 * T ^ 2)) := by rw [hqe]; field_simp
  have hprod : δ ^ 2 * 4 * T ^ 2 = (S - |b|) * (S + |b|) := by nlinarith [sq_abs b]
  have hsg : sgn b * sgn b = 1 := by rcases (sgn_cases b).1 with h | h <;> rw [h] <;> norm_num
  have hsg0 : sgn b ≠ 0 := by rcases (sgn_cases b).1 with h | h <;> rw [h] <;> norm_num
  have hx2 : -(δ * δ) / q20 T p1 p2 v1 v2 = sgn b * ((S - |b|) / (2 * T ^ 2)) := by
    rw [hqe, div_eq_iff (mul_ne_zero (neg_ne_zero.2 hsg0) hm.ne')]
    have : sgn b * ((S - |b|) / (2 * T ^ 2)) * (-sgn b * ((|b| + S) / 2)) = -(sgn b * sgn b) * ((S - |b|) * (S + |b|)) / (4 * T ^ 2) := by
      field_simp; ring
    rw [this, hsg, ← hprod]; field_simp
  rw [hx1, hx2]
  have hsa : |sgn b| = 1 := by rcases (sgn_cases b).1 with h | h <;> rw [h] <;> norm_num
  rw [abs_mul, abs_mul, abs_neg, hsa, one_mul, one_mul, abs_of_pos hmag, abs_of_nonneg (div_nonneg (by linarith) (by positivity))]
  by_cases hb : b ≤ 0
  · rw [if_pos hb]
    by_cases hb0 : b = 0
    · subst hb0
      rw [abs_zero, sub_zero, zero_add, if_neg (lt_irrefl _)]
      unfold sgn; rw [if_pos (le_refl _)]
    · have hb' : b < 0 := lt_of_le_of_ne hb hb0
      have : 0 < |b| := abs_pos.2 hb0
      rw [if_pos (by rw [div_lt_div_iff_of_pos_right (by positivity)]; linarith)]
      unfold sgn; rw [if_neg (not_le.2 hb')]; ring
  · have hb' := not_le.1 hb
    have : 0 < |b| := abs_pos.2 hb'.ne'
    rw [if_neg hb, if_pos (by rw [div_lt_div_iff_of_pos_right (by positivity)]; linarith)]
    unfold sgn; rw [if_pos hb'.le]

/-- The magnitude solves the equation, and the velocities can be joined. -/
theorem mag20_root {T p1 p2 v1 v2 : ℝ} (hT : 0 < T) :
    T ^ 2 * mag20 T p1 p2 v1 v2 ^ 2 + sgn20 T p1 p2 v1 v2 * (2 * T * (v1 + v2) - 4 * (p2 - p1)) * mag20 T p1 p2 v1 v2 - (v2 - v1) ^ 2 = 0 ∧
    |v2 - v1| ≤ T * mag20 T p1 p2 v1 v2 ∧ 0 ≤ mag20 T p1 p2 v1 v2 := by
  obtain ⟨hs, hb⟩ := sgn20_cases T p1 p2 v1 v2
  have hss : sgn20 T p1 p2 v1 v2 * (2 * T * (v1 + v2) - 4 * (p2 - p1)) = -|2 * T * (v1 + v2) - 4 * (p2 - p1)| := by
    rcases hs with h | h
    · rw [h] at hb ⊢; linarith
    · rw [h] at hb ⊢; linarith
  rw [hss]
  unfold mag20
  generalize 2 * T * (v1 + v2) - 4 * (p2 - p1) = b
  generalize v2 - v1 = δ
  set S := √(b ^ 2 + 4 * T ^ 2 * δ ^ 2) with hS
  have hS0 : 0 ≤ S := Real.sqrt_nonneg _
  have hS2 : S ^ 2 = b ^ 2 + 4 * T ^ 2 * δ ^ 2 := Real.sq_sqrt (by positivity)
  have hb2 := sq_abs b
  have hb0 := abs_nonneg b
  refine ⟨?_, ?_, by positivity⟩
  · field_simp
    nlinarith
  · have h2 : 2 * T * |δ| ≤ S := by
      apply Real.le_sqrt_of_sq_le
      have : (2 * T * |δ|) ^ 2 = 4 * T ^ 2 * δ ^ 2 := by rw [mul_pow, mul_pow, sq_abs]; ring
      rw [this]; nlinarith [sq_nonneg b]
    have e : T * ((|b| + S) / (2 * T ^ 2)) = (|b| + S) / (2 * T) := by field_simp
    rw [e, le_div_iff₀ (by positivity)]
    linarith

/-! ## Trajectories in the direction of the acceleration -/

/-- Two phases of total duration `T`. -/
theorem core_two {a u1 u2 y T : ℝ} (ha : 0 < a) (hf : T ^ 2 * a ^ 2 + (2 * T * (u1 + u2) - 4 * y) * a - (u2 - u1) ^ 2 = 0)
    (hge : |u2 - u1| ≤ T * a) :
    0 ≤ 1 / 2 * ((u2 - u1) / a + T) ∧ 1 / 2 * ((u2 - u1) / a + T) ≤ T ∧
    u1 + a * (1 / 2 * ((u2 - u1) / a + T)) = (u1 + u2 + a * T) / 2 ∧
    2 * a * y = 2 * ((u1 + u2 + a * T) / 2) ^ 2 - u1 ^ 2 - u2 ^ 2 := by
  have h := abs_le.1 hge
  have h1 : -T ≤ (u2 - u1) / a := by rw [le_div_iff₀ ha]; linarith [h.1]
  have h2 : (u2 - u1) / a ≤ T := by rw [div_le_iff₀ ha]; linarith [h.2]
  refine ⟨by linarith, by linarith, by field_simp; ring, ?_⟩
  nlinarith

/-- Three phases. -/
theorem core_three {a u1 u2 y T V A : ℝ} (ha : 0 < a) (hV : 0 < V) (hA : 0 < A) (h1 : u1 ≤ V) (h2 : u2 ≤ V)
    (hy : 2 * a * y = 2 * ((u1 + u2 + a * T) / 2) ^ 2 - u1 ^ 2 - u2 ^ 2) (hw : V < (u1 + u2 + a * T) / 2)
    (hK : 0 < (V - u1) ^ 2 + (V - u2) ^ 2) (hlim : ((V - u1) ^ 2 + (V - u2) ^ 2) / (2 * A) ≤ V * T - y) :
    0 < ((V - u1) ^ 2 + (V - u2) ^ 2) / (2 * (V * T - y)) ∧ ((V - u1) ^ 2 + (V - u2) ^ 2) / (2 * (V * T - y)) ≤ A ∧
    (∀ a', a' = ((V - u1) ^ 2 + (V - u2) ^ 2) / (2 * (V * T - y)) →
      0 ≤ (V - u1) / a' ∧ 0 ≤ (V - u2) / a' ∧ 0 ≤ (u1 * u1 + u2 * u2 - 2 * V * V) / (2 * V * a') + y / V ∧
      (V - u1) / a' + ((u1 * u1 + u2 * u2 - 2 * V * V) / (2 * V * a') + y / V) + (V - u2) / a' = T) := by
  have hW : 0 < V * T - y := lt_of_lt_of_le (by positivity) hlim
  set K := (V - u1) ^ 2 + (V - u2) ^ 2 with hKe
  set W := V * T - y with hWe
  have hpos : 0 < K / (2 * W) := by positivity
  refine ⟨hpos, ?_, ?_⟩
  · rw [div_le_iff₀ (by positivity)]
    rw [div_le_iff₀ (by positivity)] at hlim
    linarith
  · intro a' ha'
    have ha0 : 0 < a' := by rw [ha']; exact hpos
    have haW : a' * (2 * W) = K := by rw [ha']; field_simp
    -- the constant velocity phase
    have htv : (u1 * u1 + u2 * u2 - 2 * V * V) / (2 * V * a') + y / V = T - (2 * V - u1 - u2) / a' := by
      have : (2 * V * a') * T - 2 * V * (2 * V - u1 - u2) = u1 * u1 + u2 * u2 - 2 * V * V + 2 * a' * y := by
        have : a' * (2 * (V * T - y)) = (V - u1) ^ 2 + (V - u2) ^ 2 := haW
        nlinarith
      field_simp
      linarith
    refine ⟨div_nonneg (by linarith) ha0.le, div_nonneg (by linarith) ha0.le, ?_, ?_⟩
    · rw [htv, sub_nonneg, div_le_iff₀ ha0]
      -- T a' ≥ 2 V - u1 - u2
      rw [← mul_le_mul_iff_left₀ (show 0 < 2 * W by linarith)]
      have e2 : T * a' * (2 * W) = T * K := by rw [mul_assoc, haW]
      rw [e2, ← mul_le_mul_iff_left₀ ha]
      generalize hwe : (u1 + u2 + a * T) / 2 = w at *
      have hTa : a * T = 2 * w - u1 - u2 := by linarith
      have hWa : 2 * W * a = K - 2 * (V - w) ^ 2 := by
        have : 2 * W * a = 2 * V * (a * T) - 2 * a * y := by rw [hWe]; ring
        rw [this, hTa, hy, hKe]; ring
      have e3 : T * K * a = K * (2 * w - u1 - u2) := by rw [← hTa]; ring
      have e4 : (2 * V - u1 - u2) * (2 * W) * a = (2 * V - u1 - u2) * (K - 2 * (V - w) ^ 2) := by rw [← hWa]; ring
      rw [e3, e4]
      have h5 : 0 ≤ (2 * V - u1 - u2) * (2 * (V - w) ^ 2) := mul_nonneg (by linarith) (by positivity)
      have h6 : 0 ≤ K * (2 * (w - V)) := mul_nonneg hK.le (by linarith)
      nlinarith
    · rw [htv]; field_simp; ring

/-! ## Durations that can be reached -/

/-- Spec: with accelerations of sign `s` first, the bounds are respected. -/
def Feasible (A V s T p1 p2 v1 v2 : ℝ) : Prop :=
  4 * disc A s p1 p2 v1 v2 ≤ (T * A + s * (v1 + v2)) ^ 2 ∧
  (2 * V < T * A + s * (v1 + v2) → ((V - s * v1) ^ 2 + (V - s * v2) ^ 2) / (2 * A) ≤ V * T - s * (p2 - p1))

/-- Durations longer than the minimal time, same sign of acceleration. -/
theorem feasible_same {A V s T p1 p2 v1 v2 : ℝ} (hA : 0 < A) (hV : 0 < V) (hs : s = 1 ∨ s = -1)
    (h : s * deltaPacc A v1 v2 ≤ s * (p2 - p1)) (hT : (segments A V s p1 p2 v1 v2).T ≤ T) : Feasible A V s T p1 p2 v1 v2 := by
  obtain ⟨hD, k1, k2⟩ := sqrt_disc_ge hA hs h
  obtain ⟨e1, e2⟩ := segments_eq (V := V) hA hV hs h
  have hr2 : √(disc A s p1 p2 v1 v2) ^ 2 = disc A s p1 p2 v1 v2 := Real.sq_sqrt hD
  have hr0 := Real.sqrt_nonneg (disc A s p1 p2 v1 v2)
  have hss : s * s = 1 := by rcases hs with rfl | rfl <;> norm_num
  have hsd : s * (p2 - p1) = (disc A s p1 p2 v1 v2 - (v1 ^ 2 + v2 ^ 2) / 2) / A := by unfold disc; field_simp; ring
  have hKe : (V - s * v1) ^ 2 + (V - s * v2) ^ 2 = 2 * V ^ 2 - 2 * V * (s * (v1 + v2)) + v1 ^ 2 + v2 ^ 2 := by
    have : (V - s * v1) ^ 2 + (V - s * v2) ^ 2 = 2 * V ^ 2 - 2 * V * (s * (v1 + v2)) + (s * s) * v1 ^ 2 + (s * s) * v2 ^ 2 := by ring
    rw [this, hss]; ring
  unfold Feasible
  by_cases hc : √(disc A s p1 p2 v1 v2) ≤ V
  · rw [e1 hc] at hT
    simp only [Traj.T] at hT
    rw [add_zero, ← add_div, div_le_iff₀ hA] at hT
    have hge : 2 * √(disc A s p1 p2 v1 v2) ≤ T * A + s * (v1 + v2) := by linarith
    constructor
    · have := pow_le_pow_left₀ (by linarith) hge 2
      nlinarith
    · intro hlt
      have hDV : disc A s p1 p2 v1 v2 ≤ V ^ 2 := by rw [← hr2]; exact pow_le_pow_left₀ hr0 hc 2
      rw [hKe, hsd, div_le_iff₀ (by positivity)]
      have : (V * T - (disc A s p1 p2 v1 v2 - (v1 ^ 2 + v2 ^ 2) / 2) / A) * (2 * A) = 2 * V * (T * A) - 2 * disc A s p1 p2 v1 v2 + (v1 ^ 2 + v2 ^ 2) := by
        field_simp; ring
      rw [this]
      nlinarith
  · have hc' := not_le.1 hc
    have hDV : V ^ 2 < disc A s p1 p2 v1 v2 := by
      rw [← hr2]; exact pow_lt_pow_left₀ hc' hV.le two_ne_zero
    rw [e2 hc'] at hT
    simp only [Traj.T] at hT
    generalize disc A s p1 p2 v1 v2 = D at *
    have e : (V - s * v1) / A + (D - V ^ 2) / (V * A) + (V - s * v2) / A = (V + D / V - s * (v1 + v2)) / A := by field_simp; ring
    rw [e, div_le_iff₀ hA] at hT
    have hge : V + D / V ≤ T * A + s * (v1 + v2) := by linarith
    have hDV2 : 0 < D / V := div_pos (by nlinarith [sq_nonneg V]) hV
    constructor
    · have h3 := pow_le_pow_left₀ (by positivity) hge 2
      have h4 : 4 * D ≤ (V + D / V) ^ 2 := by
        have : (V + D / V) ^ 2 - 4 * D = (V - D / V) ^ 2 := by field_simp; ring
        nlinarith [sq_nonneg (V - D / V)]
      linarith
    · intro _
      rw [hKe, hsd, div_le_iff₀ (by positivity)]
      have : (V * T - (D - (v1 ^ 2 + v2 ^ 2) / 2) / A) * (2 * A) = 2 * V * (T * A) - 2 * D + (v1 ^ 2 + v2 ^ 2) := by
        field_simp; ring
      rw [this]
      have h5 : V * (V + D / V) ≤ V * (T * A + s * (v1 + v2)) := mul_le_mul_of_nonneg_left hge hV.le
      have h6 : V * (V + D / V) = V ^ 2 + D := by field_simp
      nlinarith

/-- The interval excluded, explicitly: when both velocities are in the direction of the motion. -/
theorem infeasible_eq {A V p1 p2 v1 v2 s : ℝ} (hA : 0 < A) (hs : s = 1 ∨ s = -1) (hσ : sigma A p1 p2 v1 v2 = s) (h1 : |v1| ≤ V) (h2 : |v2| ≤ V)
    (h : s * deltaPacc A v1 v2 ≤ s * (p2 - p1)) (hu1 : 0 < s * v1) (hu2 : 0 < s * v2) :
    (disc A (-s) p1 p2 v1 v2 < 0 ∧ infeasible A V p1 p2 v1 v2 = none) ∨
    (0 ≤ disc A (-s) p1 p2 v1 v2 ∧ √(disc A (-s) p1 p2 v1 v2) ≤ V ∧
      infeasible A V p1 p2 v1 v2 = some ((s * (v1 + v2) - 2 * √(disc A (-s) p1 p2 v1 v2)) / A, (s * (v1 + v2) + 2 * √(disc A (-s) p1 p2 v1 v2)) / A)) := by
  have hss : s * s = 1 := by rcases hs with rfl | rfl <;> norm_num
  have hVp : 0 < V := by
    have := abs_le.1 h1
    rcases hs with rfl | rfl <;> linarith [this.1, this.2]
  have hv12 : ¬ v1 * v2 ≤ 0 := by
    have : v1 * v2 = (s * v1) * (s * v2) := by
      have : (s * v1) * (s * v2) = (s * s) * (v1 * v2) := by ring
      rw [this, hss, one_mul]
    rw [this]; exact not_le.2 (mul_pos hu1 hu2)
  have hav : ¬ s * A * v1 < 0 := by
    have : s * A * v1 = A * (s * v1) := by ring
    rw [this]; exact not_lt.2 (mul_pos hA hu1).le
  have habs : ∀ v : ℝ, 0 < s * v → |v| = s * v := by
    intro v hv
    rcases hs with rfl | rfl
    · rw [one_mul] at hv ⊢; exact abs_of_pos hv
    · rw [abs_of_neg (by linarith)]; ring
  have hd0 : 0 ≤ s * (p2 - p1) := by
    refine le_trans ?_ h
    unfold deltaPacc
    have : s * (1 / 2 * (v1 + v2) * (|v2 - v1| / A)) = (s * v1 + s * v2) / 2 * (|v2 - v1| / A) := by ring
    rw [this]; positivity
  have hdabs : |p2 - p1| = s * (p2 - p1) := by
    rcases hs with rfl | rfl
    · rw [one_mul] at hd0 ⊢; exact abs_of_nonneg hd0
    · rw [abs_of_nonpos (by linarith)]; ring
  have hzero : |(|v1| / A) * v1 / 2 + (|v2| / A) * v2 / 2| = (v1 ^ 2 + v2 ^ 2) / (2 * A) := by
    rw [habs v1 hu1, habs v2 hu2]
    have : s * v1 / A * v1 / 2 + s * v2 / A * v2 / 2 = s * ((v1 ^ 2 + v2 ^ 2) / (2 * A)) := by field_simp
    rw [this, abs_mul, abs_of_nonneg (by positivity : 0 ≤ (v1 ^ 2 + v2 ^ 2) / (2 * A))]
    rcases hs with rfl | rfl <;> simp
  have hdiscA : disc A (-s) p1 p2 v1 v2 = (v1 ^ 2 + v2 ^ 2) / 2 - A * (s * (p2 - p1)) := by unfold disc; ring
  unfold infeasible
  simp only [hσ]
  rw [if_neg (fun hc => hc.elim hv12 hav), hzero, hdabs]
  by_cases hz : (v1 ^ 2 + v2 ^ 2) / (2 * A) < s * (p2 - p1)
  · left
    rw [if_pos hz]
    refine ⟨?_, rfl⟩
    rw [hdiscA]
    rw [div_lt_iff₀ (by positivity)] at hz
    linarith
  · right
    have hz' := not_lt.1 hz
    rw [le_div_iff₀ (by positivity)] at hz'
    have hDn : 0 ≤ disc A (-s) p1 p2 v1 v2 := by rw [hdiscA]; linarith
    have hDV : disc A (-s) p1 p2 v1 v2 ≤ V ^ 2 := by
      rw [hdiscA]
      have q1 := sq_abs v1
      have q2 := sq_abs v2
      have q3 := pow_le_pow_left₀ (abs_nonneg v1) h1 2
      have q4 := pow_le_pow_left₀ (abs_nonneg v2) h2 2
      have : 0 ≤ A * (s * (p2 - p1)) := mul_nonneg hA.le hd0
      linarith
    rw [if_neg hz]
    generalize hDe : disc A (-s) p1 p2 v1 v2 = D at *
    set r := √D with hr
    have hr2 : r ^ 2 = D := Real.sq_sqrt hDn
    have hr0 : 0 ≤ r := Real.sqrt_nonneg _
    have hrV : r ≤ V := Real.sqrt_le_iff.2 ⟨hVp.le, hDV⟩
    refine ⟨hDn, hrV, ?_⟩
    have hdelta : √(2 * v1 * (2 * v1) - 4 * -(s * A) * (1 / 2 * (v1 + v2) * (v2 - v1) / (s * A) - (p2 - p1))) = 2 * r := by
      have : 2 * v1 * (2 * v1) - 4 * -(s * A) * (1 / 2 * (v1 + v2) * (v2 - v1) / (s * A) - (p2 - p1)) = (2 * r) ^ 2 := by
        rw [mul_pow, hr2, hdiscA]
        rcases hs with rfl | rfl <;> field_simp <;> ring
      rw [this, Real.sqrt_sq (by linarith)]
    rw [hdelta]
    have hmax : max ((-(2 * v1) + 2 * r) / (2 * -(s * A))) ((-(2 * v1) - 2 * r) / (2 * -(s * A))) = (s * v1 + r) / A := by
      rcases hs with rfl | rfl
      · have e1 : (-(2 * v1) + 2 * r) / (2 * -(1 * A)) = (v1 - r) / A := by field_simp; ring
        have e2 : (-(2 * v1) - 2 * r) / (2 * -(1 * A)) = (v1 + r) / A := by field_simp; ring
        rw [e1, e2, max_eq_right (by rw [div_le_div_iff_of_pos_right hA]; linarith), one_mul]
      · have e1 : (-(2 * v1) + 2 * r) / (2 * -(-1 * A)) = (-1 * v1 + r) / A := by field_simp
        have e2 : (-(2 * v1) - 2 * r) / (2 * -(-1 * A)) = (-1 * v1 - r) / A := by field_simp
        rw [e1, e2, max_eq_left (by rw [div_le_div_iff_of_pos_right hA]; linarith)]
    have hmin : min ((-(2 * v1) + 2 * r) / (2 * -(s * A))) ((-(2 * v1) - 2 * r) / (2 * -(s * A))) = (s * v1 - r) / A := by
      rcases hs with rfl | rfl
      · have e1 : (-(2 * v1) + 2 * r) / (2 * -(1 * A)) = (v1 - r) / A := by field_simp; ring
        have e2 : (-(2 * v1) - 2 * r) / (2 * -(1 * A)) = (v1 + r) / A := by field_simp; ring
        rw [e1, e2, min_eq_left (by rw [div_le_div_iff_of_pos_right hA]; linarith), one_mul]
      · have e1 : (-(2 * v1) + 2 * r) / (2 * -(-1 * A)) = (-1 * v1 + r) / A := by field_simp
        have e2 : (-(2 * v1) - 2 * r) / (2 * -(-1 * A)) = (-1 * v1 - r) / A := by field_simp
        rw [e1, e2, min_eq_right (by rw [div_le_div_iff_of_pos_right hA]; linarith)]
    rw [hmax, hmin]
    have hpos : -(max 0 (-((v2 - v1) / (-(s * A))))) < (s * v1 + r) / A := by
      have h3 : 0 < (s * v1 + r) / A := by positivity
      have h4 := le_max_left 0 (-((v2 - v1) / (-(s * A))))
      linarith
    have hpk : v1 + (s * v1 + r) / A * -(s * A) = -(s * r) := by
      have : (s * v1 + r) / A * -(s * A) = -((s * s) * v1) - s * r := by field_simp; ring
      rw [this, hss]; ring
    have hpk2 : |-(s * r)| = r := by
      rw [abs_neg, abs_mul, abs_of_nonneg hr0]
      rcases hs with rfl | rfl <;> simp
    rw [if_pos hpos, hpk, hpk2, if_pos ⟨Or.inl hpos, not_lt.2 hrV⟩]
    have hdv : (v2 - v1) / (s * A) = (s * v2 - s * v1) / A := by
      rcases hs with rfl | rfl
      · rw [one_mul, one_mul, one_mul]
      · rw [show (-1 * A) = -A by ring, div_neg, ← neg_div]; congr 1; ring
    rw [hdv]
    congr 2
    · field_simp; ring
    · field_simp; ring

/-- Durations longer than the minimal time and out of the infeasible interval, opposite sign of acceleration. -/
theorem feasible_opposite {A V T p1 p2 v1 v2 s : ℝ} (hA : 0 < A) (hV : 0 < V) (hs : s = 1 ∨ s = -1) (hσ : sigma A p1 p2 v1 v2 = s)
    (h1 : |v1| ≤ V) (h2 : |v2| ≤ V) (h : s * deltaPacc A v1 v2 ≤ s * (p2 - p1)) (hT : (segments A V s p1 p2 v1 v2).T ≤ T)
    (hI : ∀ i, infeasible A V p1 p2 v1 v2 = some i → ¬ (i.1 < T ∧ T < i.2)) : Feasible A V (-s) T p1 p2 v1 v2 := by
  have hss : s * s = 1 := by rcases hs with rfl | rfl <;> norm_num
  obtain ⟨r1, r2, r3, _, r5, _, r7⟩ := segments_reaches hA hV h1 h2 hs h
  have hδ : |v2 - v1| ≤ T * A := by
    have hv : v2 - v1 = (segments A V s p1 p2 v1 v2).a1 * ((segments A V s p1 p2 v1 v2).t1 - (segments A V s p1 p2 v1 v2).t2) := by
      have := congrArg Prod.snd r7
      simp only [Traj.final, phase] at this
      linarith
    rw [hv, abs_mul]
    have ha : |(segments A V s p1 p2 v1 v2).a1| = A := by
      have : (segments A V s p1 p2 v1 v2).a1 = s * A := by unfold segments; simp only; split <;> rfl
      rw [this, abs_mul, abs_of_pos hA]
      rcases hs with rfl | rfl <;> simp
    rw [ha]
    have : |(segments A V s p1 p2 v1 v2).t1 - (segments A V s p1 p2 v1 v2).t2| ≤ T := by
      unfold Traj.T at hT
      rw [abs_le]; constructor <;> linarith
    nlinarith
  have hsd : A * (s * (p2 - p1)) = (v1 ^ 2 + v2 ^ 2) / 2 - disc A (-s) p1 p2 v1 v2 := by unfold disc; ring
  have hq1 : v1 ^ 2 ≤ V ^ 2 := by rw [← sq_abs]; exact pow_le_pow_left₀ (abs_nonneg v1) h1 2
  have hq2 : v2 ^ 2 ≤ V ^ 2 := by rw [← sq_abs]; exact pow_le_pow_left₀ (abs_nonneg v2) h2 2
  -- the velocity limit
  have second : disc A (-s) p1 p2 v1 v2 ≤ V ^ 2 → (2 * V < T * A + -s * (v1 + v2) →
      ((V - -s * v1) ^ 2 + (V - -s * v2) ^ 2) / (2 * A) ≤ V * T - -s * (p2 - p1)) := by
    intro hDV hlt
    rw [div_le_iff₀ (by positivity)]
    have hKe : (V - -s * v1) ^ 2 + (V - -s * v2) ^ 2 = 2 * V ^ 2 + 2 * V * (s * (v1 + v2)) + v1 ^ 2 + v2 ^ 2 := by
      have : (V - -s * v1) ^ 2 + (V - -s * v2) ^ 2 = 2 * V ^ 2 + 2 * V * (s * (v1 + v2)) + (s * s) * v1 ^ 2 + (s * s) * v2 ^ 2 := by ring
      rw [this, hss]; ring
    rw [hKe]
    have : (V * T - -s * (p2 - p1)) * (2 * A) = 2 * V * (T * A) + 2 * (A * (s * (p2 - p1))) := by ring
    rw [this, hsd]
    nlinarith
  by_cases hu : 0 < s * v1 ∧ 0 < s * v2
  · rcases infeasible_eq hA hs hσ h1 h2 h hu.1 hu.2 with ⟨hD, _⟩ | ⟨hD, hDV, he⟩
    · exact ⟨by nlinarith [sq_nonneg (T * A + -s * (v1 + v2))], second (by nlinarith [sq_nonneg V])⟩
    · have hr2 : √(disc A (-s) p1 p2 v1 v2) ^ 2 = disc A (-s) p1 p2 v1 v2 := Real.sq_sqrt hD
      have hr0 := Real.sqrt_nonneg (disc A (-s) p1 p2 v1 v2)
      refine ⟨?_, second (by rw [← hr2]; exact pow_le_pow_left₀ hr0 hDV 2)⟩
      have hout := hI _ he
      simp only at hout
      have hcases : T ≤ (s * (v1 + v2) - 2 * √(disc A (-s) p1 p2 v1 v2)) / A ∨ (s * (v1 + v2) + 2 * √(disc A (-s) p1 p2 v1 v2)) / A ≤ T := by
        by_contra hcon
        push Not at hcon
        exact hout hcon
      rcases hcases with hc | hc
      · rw [le_div_iff₀ hA] at hc
        nlinarith
      · rw [div_le_iff₀ hA] at hc
        nlinarith
  · -- through zero velocity
    have hu' : s * v1 ≤ 0 ∨ s * v2 ≤ 0 := by
      by_cases h3 : 0 < s * v1
      · exact Or.inr (not_lt.1 (fun h4 => hu ⟨h3, h4⟩))
      · exact Or.inl (not_lt.1 h3)
    have h2' : s * (1 / 2 * (v1 + v2) * |v2 - v1|) ≤ A * (s * (p2 - p1)) := by
      have := mul_le_mul_of_nonneg_left h hA.le
      unfold deltaPacc at this
      have e : A * (s * (1 / 2 * (v1 + v2) * (|v2 - v1| / A))) = s * (1 / 2 * (v1 + v2) * |v2 - v1|) := by field_simp
      rw [e] at this
      exact this
    have hv1e : v1 = s * (s * v1) := by rw [← mul_assoc, hss, one_mul]
    have hv2e : v2 = s * (s * v2) := by rw [← mul_assoc, hss, one_mul]
    have hsq1 : v1 ^ 2 = (s * v1) ^ 2 := by rw [mul_pow, pow_two s, hss, one_mul]
    have hsq2 : v2 ^ 2 = (s * v2) ^ 2 := by rw [mul_pow, pow_two s, hss, one_mul]
    have habs : |v2 - v1| = |s * v2 - s * v1| := by
      rw [← mul_sub, abs_mul]
      rcases hs with rfl | rfl <;> simp
    have hdd : disc A (-s) p1 p2 v1 v2 ≤ (v1 ^ 2 + v2 ^ 2) / 2 - (s * v1 + s * v2) / 2 * |s * v2 - s * v1| := by
      rw [habs] at h2'
      nlinarith
    have hsum : s * (v1 + v2) = s * v1 + s * v2 := by ring
    have hnsum : -s * (v1 + v2) = -(s * v1 + s * v2) := by ring
    rw [habs] at hδ
    rw [hsq1, hsq2] at hdd
    have hq1' : (s * v1) ^ 2 ≤ V ^ 2 := by rw [← hsq1]; exact hq1
    have hq2' : (s * v2) ^ 2 ≤ V ^ 2 := by rw [← hsq2]; exact hq2
    generalize s * v1 = u1 at *
    generalize s * v2 = u2 at *
    by_cases hle : u1 ≤ u2
    · rw [abs_of_nonneg (by linarith)] at hdd hδ
      have hD1 : disc A (-s) p1 p2 v1 v2 ≤ u1 ^ 2 := le_trans hdd (by apply le_of_eq; ring)
      have hu1 : u1 ≤ 0 := by rcases hu' with h | h <;> linarith
      refine ⟨?_, second (le_trans hD1 hq1')⟩
      rw [hnsum]
      have hp := pow_le_pow_left₀ (show 0 ≤ -(2 * u1) by linarith) (show -(2 * u1) ≤ T * A + -(u1 + u2) by linarith) 2
      have he : (-(2 * u1)) ^ 2 = 4 * u1 ^ 2 := by ring
      linarith
    · have hle' := not_le.1 hle
      rw [abs_of_neg (by linarith)] at hdd hδ
      have hD1 : disc A (-s) p1 p2 v1 v2 ≤ u2 ^ 2 := le_trans hdd (by apply le_of_eq; ring)
      have hu2 : u2 ≤ 0 := by rcases hu' with h | h <;> linarith
      refine ⟨?_, second (le_trans hD1 hq2')⟩
      rw [hnsum]
      have hp := pow_le_pow_left₀ (show 0 ≤ -(2 * u2) by linarith) (show -(2 * u2) ≤ T * A + -(u1 + u2) by linarith) 2
      have he : (-(2 * u2)) ^ 2 = 4 * u2 ^ 2 := by ring
      linarith

/-! ## The trajectory -/

/-- The acceleration found respects the bound. -/
theorem mag20_le {A V T p1 p2 v1 v2 : ℝ} (hA : 0 < A) (hT : 0 < T) (hF : Feasible A V (sgn20 T p1 p2 v1 v2) T p1 p2 v1 v2) :
    mag20 T p1 p2 v1 v2 ≤ A := by
  obtain ⟨hs, hb⟩ := sgn20_cases T p1 p2 v1 v2
  obtain ⟨r1, _, r3⟩ := mag20_root (p1 := p1) (p2 := p2) (v1 := v1) (v2 := v2) hT
  have h1 := hF.1
  generalize sgn20 T p1 p2 v1 v2 = s at *
  generalize mag20 T p1 p2 v1 v2 = a at *
  have hss : s * s = 1 := by rcases hs with rfl | rfl <;> norm_num
  unfold disc at h1
  have hfA : 0 ≤ T ^ 2 * A ^ 2 + s * (2 * T * (v1 + v2) - 4 * (p2 - p1)) * A - (v2 - v1) ^ 2 := by
    have : (T * A + s * (v1 + v2)) ^ 2 = T ^ 2 * A ^ 2 + 2 * s * T * A * (v1 + v2) + (s * s) * (v1 + v2) ^ 2 := by ring
    rw [this, hss] at h1
    nlinarith
  generalize s * (2 * T * (v1 + v2) - 4 * (p2 - p1)) = B at *
  by_contra hcon
  have hlt := not_le.1 hcon
  have hTA : 0 ≤ T ^ 2 * A + B := by
    by_contra hneg
    have := mul_neg_of_pos_of_neg hA (not_le.1 hneg)
    nlinarith [sq_nonneg (v2 - v1)]
  have hT2 : 0 < T ^ 2 := by positivity
  have h5 : 0 < (a - A) * (T ^ 2 * a) := mul_pos (by linarith) (mul_pos hT2 (by linarith))
  have h6 : 0 ≤ (a - A) * (T ^ 2 * A + B) := mul_nonneg (by linarith) hTA
  nlinarith

theorem sgn_mul_pos {s a : ℝ} (hs : s = 1 ∨ s = -1) (ha : 0 < a) : sgn (s * a) = s := by
  rcases hs with rfl | rfl
  · unfold sgn; rw [if_pos (by linarith)]
  · unfold sgn; rw [if_neg (by linarith)]

theorem clamp_le {A : ℝ} (hA : 0 ≤ A) (a : ℝ) : |clamp A a| ≤ A := by
  unfold clamp
  by_cases h : A < |a|
  · rw [if_pos h]
    have : |sgn a| = 1 := by unfold sgn; split <;> simp
    rw [abs_mul, this, mul_one, abs_of_nonneg hA]
  · rw [if_neg h]; exact not_lt.1 h

theorem clamp_sgn {A : ℝ} (hA : 0 ≤ A) (a : ℝ) : 0 ≤ a * clamp A a := by
  unfold clamp
  by_cases h : A < |a|
  · rw [if_pos h]
    have : 0 ≤ a * sgn a := by unfold sgn; split <;> nlinarith
    nlinarith
  · rw [if_neg h]; exact mul_self_nonneg a

/-- C82: whatever the end states and the duration, the acceleration of the motion of fixed duration is within the bound. -/
theorem C82_acceleration {A : ℝ} (hA : 0 ≤ A) (V e T p1 p2 v1 v2 : ℝ) : |(fixedTime A V e T p1 p2 v1 v2).a1| ≤ A := by
  unfold fixedTime
  split
  · simpa using hA
  · simp only
    split
    · exact clamp_le hA _
    · exact clamp_le hA _

theorem clamp_id {A a : ℝ} (h : |a| ≤ A) : clamp A a = a := if_neg (not_lt.2 h)

/-- C56: for a duration not shorter than the minimal time and not in the infeasible interval, the trajectory computed reaches the target position with
the target velocity within the bounds and has this duration, except for the two degenerate cases (see the counterexamples): no displacement and equal
velocities; displacement at constant velocity (`q` null). -/
theorem C56_fixedTime_partial {A V e T p1 p2 v1 v2 : ℝ} (hA : 0 < A) (hV : 0 < V) (he : 0 ≤ e) (h1 : |v1| ≤ V) (h2 : |v2| ≤ V)
    (hTe : e < T * T) (hT0 : 0 < T) (hm : ¬ (|p2 - p1| < e ∧ |v2 - v1| < e)) (hq : e < |q20 T p1 p2 v1 v2|)
    (hT : computeMinTime A V e p1 p2 v1 v2 ≤ T) (hI : ∀ i, infeasible A V p1 p2 v1 v2 = some i → ¬ (i.1 < T ∧ T < i.2)) :
    Reaches A V p1 p2 v1 v2 (fixedTime A V e T p1 p2 v1 v2) ∧ (fixedTime A V e T p1 p2 v1 v2).T = T := by
  -- the durations are feasible
  have hF : Feasible A V (sgn20 T p1 p2 v1 v2) T p1 p2 v1 v2 := by
    obtain ⟨k1, k2, _⟩ := sigma_cases A p1 p2 v1 v2
    have hT' : (segments A V (sigma A p1 p2 v1 v2) p1 p2 v1 v2).T ≤ T := by
      unfold computeMinTime at hT; rwa [if_neg hm] at hT
    have hop : sgn20 T p1 p2 v1 v2 = sigma A p1 p2 v1 v2 ∨ sgn20 T p1 p2 v1 v2 = -sigma A p1 p2 v1 v2 := by
      rcases (sgn20_cases T p1 p2 v1 v2).1 with h | h <;> rcases k1 with k | k <;> rw [h, k] <;> norm_num
    rcases hop with h | h
    · rw [h]; exact feasible_same hA hV k1 k2 hT'
    · rw [h]; exact feasible_opposite hA hV k1 rfl h1 h2 k2 hT' hI
  obtain ⟨hsol, hmag⟩ := solve20_eq (A := A) he hT0 hTe hq
  have hle := mag20_le hA hT0 hF
  obtain ⟨hs, hb⟩ := sgn20_cases T p1 p2 v1 v2
  obtain ⟨r1, r2, _⟩ := mag20_root (p1 := p1) (p2 := p2) (v1 := v1) (v2 := v2) hT0
  have hF2 := hF.2
  -- the degenerate case is excluded
  have hdeg : ¬ (2 * T * (v1 + v2) - 4 * (p2 - p1) = 0 ∧ v2 = v1) := by
    rintro ⟨hb0, hv⟩
    rw [q20_abs, hb0, hv] at hq
    simp at hq
    linarith
  generalize sgn20 T p1 p2 v1 v2 = s at *
  generalize mag20 T p1 p2 v1 v2 = a at *
  have hss : s * s = 1 := by rcases hs with rfl | rfl <;> norm_num
  have hsa : |s| = 1 := by rcases hs with rfl | rfl <;> simp
  have hsabs : |s * a| = a := by rw [abs_mul, hsa, one_mul, abs_of_pos hmag]
  have hcl : clamp A (solve20 A e T p1 p2 v1 v2) = s * a := by rw [hsol]; exact clamp_id (by rw [hsabs]; exact hle)
  have hb1 : s * v1 ≤ V ∧ -V ≤ s * v1 := by
    have := abs_le.1 h1
    rcases hs with rfl | rfl <;> constructor <;> linarith [this.1, this.2]
  have hb2 : s * v2 ≤ V := by
    have := abs_le.1 h2
    rcases hs with rfl | rfl <;> linarith [this.1, this.2]
  -- in the direction of the acceleration
  have hf : T ^ 2 * a ^ 2 + (2 * T * (s * v1 + s * v2) - 4 * (s * (p2 - p1))) * a - (s * v2 - s * v1) ^ 2 = 0 := by
    have e1 : (s * v2 - s * v1) ^ 2 = (v2 - v1) ^ 2 := by rw [← mul_sub, mul_pow, pow_two s, hss, one_mul]
    rw [e1, ← r1]; ring
  have hge : |s * v2 - s * v1| ≤ T * a := by rw [← mul_sub, abs_mul, hsa, one_mul]; exact r2
  obtain ⟨c1, c2, c3, c4⟩ := core_two hmag hf hge
  have hdv : (v2 - v1) / (s * a) = (s * v2 - s * v1) / a := by
    rcases hs with rfl | rfl
    · rw [one_mul, one_mul, one_mul]
    · rw [show (-1 * a) = -a by ring, div_neg, ← neg_div]; congr 1; ring
  unfold fixedTime
  rw [if_neg (fun hc => hm ⟨hc.2, hc.1⟩)]
  simp only [hcl, hdv, sgn_mul_pos hs hmag, if_pos hq]
  have hpeak : v1 + 1 / 2 * ((s * v2 - s * v1) / a + T) * (s * a) = s * ((s * v1 + s * v2 + a * T) / 2) := by
    rw [← c3]
    have : s * (s * v1 + a * (1 / 2 * ((s * v2 - s * v1) / a + T))) = (s * s) * v1 + s * (a * (1 / 2 * ((s * v2 - s * v1) / a + T))) := by ring
    rw [this, hss]; ring
  have hpeak2 : |v1 + 1 / 2 * ((s * v2 - s * v1) / a + T) * (s * a)| = |(s * v1 + s * v2 + a * T) / 2| := by
    rw [hpeak, abs_mul, hsa, one_mul]
  rw [hpeak2]
  have hwge : -V ≤ (s * v1 + s * v2 + a * T) / 2 := by
    rw [← c3]
    have := mul_nonneg hmag.le c1
    linarith [hb1.2]
  by_cases hc : |(s * v1 + s * v2 + a * T) / 2| ≤ V
  · rw [if_pos hc]
    refine ⟨⟨c1, le_refl _, by simpa using c2, ?_, ?_, fun h0 => absurd h0 (lt_irrefl _), ?_⟩, ?_⟩
    · show |s * a| ≤ A
      rw [hsabs]; exact hle
    · show |v1 + s * a * (1 / 2 * ((s * v2 - s * v1) / a + T))| ≤ V
      rw [mul_comm (s * a), hpeak2]; exact hc
    · simp only [Traj.final, phase]
      ext
      · show _ = p2
        have c5 : 2 * a * (p2 - p1) = s * (2 * ((s * v1 + s * v2 + a * T) / 2) ^ 2 - (s * v1) ^ 2 - (s * v2) ^ 2) := by
          rw [← c4]
          have : s * (2 * a * (s * (p2 - p1))) = (s * s) * (2 * a * (p2 - p1)) := by ring
          rw [this, hss]; ring
        have c6 : p2 = p1 + s * (2 * ((s * v1 + s * v2 + a * T) / 2) ^ 2 - (s * v1) ^ 2 - (s * v2) ^ 2) / (2 * a) := by
          rw [← c5]; field_simp; ring
        rw [c6]
        rcases hs with rfl | rfl <;> field_simp <;> ring
      · show _ = v2
        rcases hs with rfl | rfl <;> field_simp <;> ring
    · show 1 / 2 * ((s * v2 - s * v1) / a + T) + 0 + (T - 1 / 2 * ((s * v2 - s * v1) / a + T)) = T
      ring
  · rw [if_neg hc]
    have hw : V < (s * v1 + s * v2 + a * T) / 2 := by
      by_contra hcon
      exact hc (abs_le.2 ⟨hwge, not_lt.1 hcon⟩)
    have hlim := hF2 (by
      have : a * T ≤ A * T := mul_le_mul_of_nonneg_right hle hT0.le
      have e1 : s * (v1 + v2) = s * v1 + s * v2 := by ring
      rw [e1]; linarith)
    have hK : 0 < (V - s * v1) ^ 2 + (V - s * v2) ^ 2 := by
      by_contra hcon
      have hcon' := not_lt.1 hcon
      have q1 := sq_nonneg (V - s * v1)
      have q2 := sq_nonneg (V - s * v2)
      have z1 : V - s * v1 = 0 := by
        have : (V - s * v1) ^ 2 = 0 := by linarith
        exact pow_eq_zero_iff two_ne_zero |>.1 this
      have z2 : V - s * v2 = 0 := by
        have : (V - s * v2) ^ 2 = 0 := by linarith
        exact pow_eq_zero_iff two_ne_zero |>.1 this
      rw [z1, z2] at hlim
      norm_num at hlim
      have hB : 0 ≤ |2 * T * (v1 + v2) - 4 * (p2 - p1)| := abs_nonneg _
      have hsB : s * (2 * T * (v1 + v2) - 4 * (p2 - p1)) = -|2 * T * (v1 + v2) - 4 * (p2 - p1)| := by
        have : s * (-s * |2 * T * (v1 + v2) - 4 * (p2 - p1)|) = -(s * s) * |2 * T * (v1 + v2) - 4 * (p2 - p1)| := by ring
        conv_lhs => rw [hb]
        rw [this, hss]; ring
      have e1 : s * (2 * T * (v1 + v2) - 4 * (p2 - p1)) = 2 * T * (s * v1 + s * v2) - 4 * (s * (p2 - p1)) := by ring
      have hsv1 : s * v1 = V := by linarith
      have hsv2 : s * v2 = V := by linarith
      rw [e1, hsv1, hsv2] at hsB
      have hB0 : |2 * T * (v1 + v2) - 4 * (p2 - p1)| = 0 := by linarith
      refine hdeg ⟨abs_eq_zero.1 hB0, ?_⟩
      have : s * (s * v2) = s * (s * v1) := by rw [hsv1, hsv2]
      rw [← mul_assoc, ← mul_assoc, hss, one_mul, one_mul] at this
      exact this
    obtain ⟨d1, d2, d3⟩ := core_three hmag hV hA hb1.1 hb2 c4 hw hK hlim
    have ha3 : ((s * V - v1) * (s * V - v1) + (s * V - v2) * (s * V - v2)) / (2 * (s * V * T - (p2 - p1))) =
        s * (((V - s * v1) ^ 2 + (V - s * v2) ^ 2) / (2 * (V * T - s * (p2 - p1)))) := by
      rcases hs with rfl | rfl
      · rw [one_mul, one_mul, one_mul, one_mul, one_mul]; congr 1; ring
      · rw [show (2 * (-1 * V * T - (p2 - p1))) = -(2 * (V * T - -1 * (p2 - p1))) by ring, div_neg, neg_one_mul]
        congr 2; ring
    rw [ha3]
    generalize hae : ((V - s * v1) ^ 2 + (V - s * v2) ^ 2) / (2 * (V * T - s * (p2 - p1))) = a' at *
    obtain ⟨f1, f2, f3, f4⟩ := d3 a' rfl
    have hsabs' : |s * a'| = a' := by rw [abs_mul, hsa, one_mul, abs_of_pos d1]
    rw [clamp_id (by rw [hsabs']; exact d2)]
    have g1 : (s * V - v1) / (s * a') = (V - s * v1) / a' := by
      rcases hs with rfl | rfl
      · rw [one_mul, one_mul, one_mul]
      · rw [show (-1 * a') = -a' by ring, div_neg, ← neg_div]; congr 1; ring
    have g2 : (v2 - s * V) / (-(s * a')) = (V - s * v2) / a' := by
      rcases hs with rfl | rfl
      · rw [one_mul, one_mul, one_mul, div_neg, ← neg_div]; congr 1; ring
      · congr 1 <;> ring
    have g3 : (v1 * v1 + v2 * v2 - 2 * (s * V) * (s * V)) / (2 * (s * V) * (s * a')) + (p2 - p1) / (s * V) =
        ((s * v1) * (s * v1) + (s * v2) * (s * v2) - 2 * V * V) / (2 * V * a') + s * (p2 - p1) / V := by
      rcases hs with rfl | rfl
      · simp only [one_mul]
      · congr 1
        · congr 1 <;> ring
        · rw [show (-1 * V) = -V by ring, div_neg, ← neg_div]; congr 1; ring
    rw [g1, g2, g3]
    have hvel : v1 + s * a' * ((V - s * v1) / a') = s * V := by
      have : s * a' * ((V - s * v1) / a') = s * V - (s * s) * v1 := by field_simp
      rw [this, hss]; ring
    refine ⟨⟨f1, f3, f2, ?_, ?_, fun _ => hvel, ?_⟩, f4⟩
    · show |s * a'| ≤ A
      rw [hsabs']; exact d2
    · show |v1 + s * a' * ((V - s * v1) / a')| ≤ V
      rw [hvel, abs_mul, hsa, one_mul, abs_of_pos hV]
    · simp only [Traj.final, phase]
      rw [hvel]
      ext
      · show _ = p2
        rcases hs with rfl | rfl <;> field_simp <;> ring
      · show _ = v2
        rcases hs with rfl | rfl <;> field_simp <;> ring

/-- C56: a degree of freedom that should go back to its position at the same nonzero velocity is not moved: its velocity is zero instead. -/
theorem C56_still_counterexample : fixedTime 1 2 (1 / 1000) 1 0 0 1 1 = ⟨0, 0, 1, 0, 0⟩ ∧ computeMinTime 1 2 (1 / 1000) 0 0 1 1 = 0 ∧
    ¬ Reaches 1 2 0 0 1 1 (fixedTime 1 2 (1 / 1000) 1 0 0 1 1) := by
  have h1 : fixedTime 1 2 (1 / 1000) 1 0 0 1 1 = ⟨0, 0, 1, 0, 0⟩ := if_pos (by norm_num)
  refine ⟨h1, if_pos (by norm_num), ?_⟩
  rw [h1]
  intro h
  have := congrArg Prod.fst h.target
  norm_num [Traj.final, phase] at this

/-- C56: a degree of freedom that can reach its target exactly at constant velocity (lower than the maximal one) is accelerated and then decelerated,
and passes its target: position `5/4` instead of `1`. -/
theorem C56_constant_counterexample : (computeMinTime 1 2 (1 / 1000) 0 1 1 1 ≤ 1 ∧
    ∀ i, infeasible 1 2 0 1 1 1 = some i → ¬ (i.1 < 1 ∧ (1 : ℝ) < i.2)) ∧
    fixedTime 1 2 (1 / 1000) 1 0 1 1 1 = ⟨1, 1 / 2, 0, 1 / 2, 2⟩ ∧ (fixedTime 1 2 (1 / 1000) 1 0 1 1 1).final (0, 1) = (5 / 4, 1) := by
  have hdp : deltaPacc 1 1 1 = 0 := by norm_num [deltaPacc]
  have hsg : sigma 1 0 1 1 1 = 1 := by simp [sigma, sgnenum, hdp]
  have hdisc : disc 1 1 0 1 1 1 = 2 := by norm_num [disc]
  have hdisc2 : disc 1 (-1) 0 1 1 1 = 0 := by norm_num [disc]
  have hq : q20 1 0 1 1 1 = 0 := by
    rw [q20_abs]; norm_num
  have hfix : fixedTime 1 2 (1 / 1000) 1 0 1 1 1 = ⟨1, 1 / 2, 0, 1 / 2, 2⟩ := by
    unfold fixedTime
    rw [if_neg (by norm_num)]
    have hs : solve20 1 (1 / 1000) 1 0 1 1 1 = 1 := by
      unfold solve20
      simp only [hq, hsg]
      norm_num
    have hc : clamp 1 (1 : ℝ) = 1 := clamp_id (by norm_num)
    simp only [hs, hc]
    norm_num [sgn]
  refine ⟨⟨?_, ?_⟩, hfix, ?_⟩
  · unfold computeMinTime
    rw [if_neg (by norm_num), hsg, (segments_eq (A := 1) (V := 2) (s := 1) (p1 := 0) (p2 := 1) (v1 := 1) (v2 := 1) one_pos two_pos (Or.inl rfl)
      (by rw [hdp]; norm_num)).1 (by rw [hdisc, Real.sqrt_le_left two_pos.le]; norm_num), hdisc]
    have : √(2 : ℝ) ≤ 3 / 2 := by rw [Real.sqrt_le_left (by norm_num)]; norm_num
    simp only [Traj.T]
    norm_num
    linarith
  · intro i hi
    rcases infeasible_eq (A := 1) (V := 2) one_pos (Or.inl rfl) hsg (by norm_num) (by norm_num) (by rw [hdp]; norm_num) (by norm_num) (by norm_num) with h | h
    · rw [h.2] at hi; cases hi
    · rw [h.2.2, hdisc2] at hi
      rw [← Option.some.inj hi]
      norm_num
  · rw [hfix]
    norm_num [Traj.final, phase]

end Verif.Kino
