import Verif.Car.Drive
set_option linter.unusedSectionVars false

/-!
# Words that are not the shortest ones (C87)

Words with a line followed by two segments, three turns with a middle turn of at most π, four turns: in each case a drive with the same ends is strictly shorter.
-/
namespace Verif.Car
open Complex Set Filter Topology
open scoped Interval ComplexConjugate

/-- The pose of heading `a` on the circle of center `c` when the car turns right. -/
noncomputable def Rp (c : ℂ) (a : ℝ) : Pose := (c + I * cis a, cis a)
/-- The pose of heading `a` on the circle of center `c` when the car turns left. -/
noncomputable def Lp (c : ℂ) (a : ℝ) : Pose := (c - I * cis a, cis a)

theorem move_right (c : ℂ) (a l : ℝ) : move (-1) l (Rp c a) = Rp c (a - l) := by
  unfold move Rp
  have e : cis (a - l) = cis a * cis (-1 * l) := by rw [← cis_add]; congr 1; ring
  rw [disp_unit neg_unit, e]
  refine Prod.ext ?_ rfl
  push_cast
  ring

theorem move_left (c : ℂ) (a l : ℝ) : move 1 l (Lp c a) = Lp c (a + l) := by
  unfold move Lp
  have e : cis (a + l) = cis a * cis (1 * l) := by rw [← cis_add, one_mul]
  rw [disp_unit one_unit, e]
  refine Prod.ext ?_ rfl
  push_cast
  ring

theorem move_line (P : ℂ) (a l : ℝ) : move 0 l (P, cis a) = (P + l * cis a, cis a) := by
  unfold move
  rw [disp_line, zero_mul, cis_zero, mul_one]
  refine Prod.ext ?_ rfl
  ring

theorem Drivable.right (c : ℂ) {a b : ℝ} (h : b ≤ a) : Drivable (Rp c a) (Rp c b) (a - b) := by
  have := Drivable.seg (p := Rp c a) ⟨a, rfl⟩ (k := -1) (l := a - b) (by simp) (by linarith)
  rwa [move_right, sub_sub_cancel] at this

theorem Drivable.left (c : ℂ) {a b : ℝ} (h : a ≤ b) : Drivable (Lp c a) (Lp c b) (b - a) := by
  have := Drivable.seg (p := Lp c a) ⟨a, rfl⟩ (k := 1) (l := b - a) (by simp) (by linarith)
  rwa [move_left, add_sub_cancel] at this

theorem Drivable.line (P : ℂ) (a : ℝ) {l : ℝ} (h : 0 ≤ l) : Drivable (P, cis a) (P + l * cis a, cis a) l := by
  have := Drivable.seg (p := (P, cis a)) ⟨a, rfl⟩ (k := 0) (l := l) (by simp) h
  rwa [move_line] at this

/-- From a right turn to a left turn. -/
theorem Rp_Lp (c : ℂ) (a : ℝ) : Rp c a = Lp (c + 2 * I * cis a) a := by
  unfold Rp Lp; refine Prod.ext ?_ rfl; ring

theorem Lp_Rp (c : ℂ) (a : ℝ) : Lp c a = Rp (c - 2 * I * cis a) a := by
  unfold Rp Lp; refine Prod.ext ?_ rfl; ring

/-- A line between two right turns. -/
theorem Rp_line (c : ℂ) (a l : ℝ) : ((Rp c a).1 + l * cis a, cis a) = Rp (c + l * cis a) a := by
  unfold Rp; refine Prod.ext ?_ rfl; ring

/-- There is a strictly shorter drive. -/
def Shorter (p q : Pose) (L : ℝ) : Prop := ∃ T < L, Drivable p q T

/-! ## Three turns -/

/-- Left, right by at most π, left. -/
theorem shorter_LRL (c0 : ℂ) (η : ℝ) {a b c : ℝ} (ha : 0 < a) (hb : 0 < b) (hb' : b ≤ Real.pi) (hc : 0 < c) :
    Shorter (Lp c0 η) (move 1 c (move (-1) b (move 1 a (Lp c0 η)))) (a + b + c) := by
  rw [move_left, Lp_Rp c0 (η + a), move_right, Rp_Lp _ (η + a - b), move_left]
  set h := min (min a c) (b / 2) with hh
  have h0 : 0 < h := lt_min (lt_min ha hc) (by linarith)
  have h1 : h ≤ a := (min_le_left _ _).trans (min_le_left _ _)
  have h2 : h ≤ c := (min_le_left _ _).trans (min_le_right _ _)
  have h3 : h ≤ b / 2 := min_le_right _ _
  set φ := η + a - b / 2 with hφ
  set y := 4 * (Real.sin (b / 2) - Real.sin (b / 2 - h)) with hy
  have y0 : 0 ≤ y := by
    have := Real.sin_le_sin_of_le_of_le_pi_div_two (x := b / 2 - h) (y := b / 2) (by linarith [Real.pi_pos]) (by linarith) (by linarith)
    rw [hy]; linarith
  have y1 : y < 4 * h := by
    have e := Real.sin_sub_sin (b / 2) (b / 2 - h)
    rw [show (b / 2 - (b / 2 - h)) / 2 = h / 2 by ring] at e
    have s1 := Real.sin_lt (x := h / 2) (by linarith)
    have s0 : 0 ≤ Real.sin (h / 2) := Real.sin_nonneg_of_nonneg_of_le_pi (by linarith) (by linarith)
    have c1 := Real.cos_le_one ((b / 2 + (b / 2 - h)) / 2)
    rw [hy, e]
    nlinarith
  have d1 := Drivable.left c0 (a := η) (b := φ + b / 2 - h) (by rw [hφ]; linarith)
  rw [Lp_Rp c0 (φ + b / 2 - h)] at d1
  have d2 := Drivable.right (c0 - 2 * I * cis (φ + b / 2 - h)) (a := φ + b / 2 - h) (b := φ) (by linarith)
  have d3 := Drivable.line (Rp (c0 - 2 * I * cis (φ + b / 2 - h)) φ).1 φ y0
  rw [Rp_line] at d3
  have d4 := Drivable.right (c0 - 2 * I * cis (φ + b / 2 - h) + y * cis φ) (a := φ) (b := φ - b / 2 + h) (by linarith)
  rw [Rp_Lp _ (φ - b / 2 + h)] at d4
  have hcen : c0 - 2 * I * cis (φ + b / 2 - h) + y * cis φ + 2 * I * cis (φ - b / 2 + h) = c0 - 2 * I * cis (η + a) + 2 * I * cis (η + a - b) := by
    have e1 : cis (η + a) - cis (η + a - b) = 2 * Real.sin (b / 2) * I * cis φ := by rw [half_chord]
    have e2 : cis (φ + b / 2 - h) - cis (φ - b / 2 + h) = 2 * Real.sin (b / 2 - h) * I * cis φ := by
      have := half_chord (φ + b / 2 - h) (b - 2 * h)
      rw [show φ + b / 2 - h - (b - 2 * h) = φ - b / 2 + h by ring, show (b - 2 * h) / 2 = b / 2 - h by ring, show φ + b / 2 - h - (b / 2 - h) = φ by ring] at this
      exact this
    have hyc : (y : ℂ) = 4 * (Real.sin (b / 2) - Real.sin (b / 2 - h)) := by rw [hy]; push_cast; ring
    rw [hyc]
    linear_combination (-2 * I) * e2 + 2 * I * e1 + 4 * cis φ * (Real.sin (b / 2) - Real.sin (b / 2 - h)) * I_sq
  rw [hcen] at d4
  have d5 := Drivable.left (c0 - 2 * I * cis (η + a) + 2 * I * cis (η + a - b)) (a := φ - b / 2 + h) (b := η + a - b + c) (by rw [hφ]; linarith)
  refine ⟨_, ?_, (((d1.trans d2).trans d3).trans d4).trans d5⟩
  rw [hφ]
  linarith

/-! ## A line before a turn -/

theorem cis_near_one (x : ℝ) : ‖cis x - 1‖ ≤ |x| := by
  have e : cis x - 1 = Complex.exp (x * I) - 1 := by
    rw [Complex.exp_mul_I]
    apply Complex.ext <;> simp [cis, Complex.cos_ofReal_re, Complex.sin_ofReal_re]
  rw [e, mul_comm]
  have := Real.norm_exp_I_mul_ofReal_sub_one_le (x := x)
  rwa [Real.norm_eq_abs] at this

theorem cis_arg (u : ℂ) : (‖u‖ : ℂ) * cis (arg u) = u := by
  have : cis (arg u) = Complex.exp (arg u * I) := by
    rw [Complex.exp_mul_I]
    apply Complex.ext <;> simp [cis, Complex.cos_ofReal_re, Complex.sin_ofReal_re]
  rw [this]
  exact Complex.norm_mul_exp_arg_mul_I u

/-- Angle of the left turn of a left-line-right drive whose last center is `s - I + z`. -/
noncomputable def lsr (s : ℝ) (z : ℂ) : ℂ := (s - 2 * I + z) / (Real.sqrt (‖(s : ℂ) - 2 * I + z‖ ^ 2 - 4) - 2 * I)

theorem norm_sq_lsr (s : ℝ) (z : ℂ) : ‖(s : ℂ) - 2 * I + z‖ ^ 2 = (s + z.re) ^ 2 + (z.im - 2) ^ 2 := by
  rw [← Complex.normSq_eq_norm_sq, Complex.normSq_apply]
  simp
  ring

theorem lsr_den (r : ℝ) : (r : ℂ) - 2 * I ≠ 0 := by
  intro h
  have := congrArg Complex.im h
  simp at this

theorem root_tendsto {s : ℝ} (hs : 0 < s) : Tendsto (fun z : ℂ => Real.sqrt (‖(s : ℂ) - 2 * I + z‖ ^ 2 - 4)) (𝓝 0) (𝓝 s) := by
  have c : Continuous fun z : ℂ => Real.sqrt (‖(s : ℂ) - 2 * I + z‖ ^ 2 - 4) := by fun_prop
  have := c.tendsto 0
  rw [norm_sq_lsr] at this
  simp only [zero_re, zero_im, add_zero] at this
  rwa [show s ^ 2 + (0 - 2) ^ 2 - 4 = s ^ 2 by ring, Real.sqrt_sq hs.le] at this

theorem lsr_tendsto {s : ℝ} (hs : 0 < s) : Tendsto (lsr s) (𝓝 0) (𝓝 1) := by
  have a : Tendsto (fun z : ℂ => (s : ℂ) - 2 * I + z) (𝓝 0) (𝓝 ((s : ℂ) - 2 * I)) := by
    have c : Continuous fun z : ℂ => (s : ℂ) - 2 * I + z := by fun_prop
    simpa using c.tendsto 0
  have b : Tendsto (fun z : ℂ => ((Real.sqrt (‖(s : ℂ) - 2 * I + z‖ ^ 2 - 4) : ℝ) : ℂ) - 2 * I) (𝓝 0) (𝓝 ((s : ℂ) - 2 * I)) :=
    ((Complex.continuous_ofReal.tendsto s).comp (root_tendsto hs)).sub_const _
  have := a.div b (lsr_den s)
  rwa [div_self (lsr_den s)] at this

theorem arg_lsr_tendsto {s : ℝ} (hs : 0 < s) : Tendsto (fun z => arg (lsr s z)) (𝓝 0) (𝓝 0) := by
  have c : ContinuousAt arg 1 := Complex.continuousAt_arg (by simp)
  have := c.tendsto.comp (lsr_tendsto hs)
  rwa [Complex.arg_one] at this

set_option maxHeartbeats 1000000 in
/-- The first turns of a drive may be changed so that the center of the right turn that follows is moved by `z`, at the cost of the projection of `z` on the line. -/
theorem head {s : ℝ} (hs : 0 < s) {ε : ℝ} (hε : 0 < ε) : ∀ᶠ z : ℂ in 𝓝 0, ∃ φ T, |φ| ≤ ε ∧ Drivable (0, 1) (Rp (s - I + z) φ) T ∧ T + φ ≤ s + z.re + ε * ‖z‖ := by
  have n1 : ∀ᶠ z : ℂ in 𝓝 0, ‖z‖ < min (ε * s) (s / 2) := by
    have : Tendsto (fun z : ℂ => ‖z‖) (𝓝 0) (𝓝 0) := by simpa using (continuous_norm (E := ℂ)).tendsto 0
    exact this.eventually (gt_mem_nhds (lt_min (by positivity) (by positivity)))
  have n2 : ∀ᶠ z : ℂ in 𝓝 0, |arg ((s : ℂ) + z)| < ε := by
    have c : ContinuousAt arg (s : ℂ) := Complex.continuousAt_arg (Or.inl (by simpa using hs))
    have a : Tendsto (fun z : ℂ => (s : ℂ) + z) (𝓝 0) (𝓝 (s : ℂ)) := by
      have c : Continuous fun z : ℂ => (s : ℂ) + z := by fun_prop
      simpa using c.tendsto 0
    have := (c.tendsto.comp a).abs
    rw [Complex.arg_ofReal_of_nonneg hs.le, abs_zero] at this
    exact this.eventually (gt_mem_nhds hε)
  have n3 : ∀ᶠ z : ℂ in 𝓝 0, |arg (lsr s z)| < min ε (min (s / 4) 1) := by
    have := (arg_lsr_tendsto hs).abs
    rw [abs_zero] at this
    exact this.eventually (gt_mem_nhds (lt_min hε (lt_min (by positivity) one_pos)))
  have n4 : ∀ᶠ z : ℂ in 𝓝 0, s / 2 < Real.sqrt (‖(s : ℂ) - 2 * I + z‖ ^ 2 - 4) :=
    (root_tendsto hs).eventually (lt_mem_nhds (by linarith))
  filter_upwards [n1, n2, n3, n4] with z h1 h2 h3 h4
  have hz1 : ‖z‖ < ε * s := h1.trans_le (min_le_left _ _)
  have hz2 : ‖z‖ < s / 2 := h1.trans_le (min_le_right _ _)
  have hre := (abs_le.1 (Complex.abs_re_le_norm z)).1
  rcases le_or_gt z.im 0 with him | him
  · -- right, line, right
    have ha : arg ((s : ℂ) + z) ≤ 0 := by
      rcases him.lt_or_eq with h | h
      · exact (Complex.arg_neg_iff.2 (by simpa using h)).le
      · have e : (s : ℂ) + z = ((s + z.re : ℝ) : ℂ) := by apply Complex.ext <;> simp [h]
        rw [e, Complex.arg_ofReal_of_nonneg (by linarith)]
    refine ⟨arg ((s : ℂ) + z), -arg ((s : ℂ) + z) + ‖(s : ℂ) + z‖, h2.le, ?_, ?_⟩
    · have d1 := Drivable.right (-I) (a := 0) (b := arg ((s : ℂ) + z)) ha
      have d2 := Drivable.line (Rp (-I) (arg ((s : ℂ) + z))).1 (arg ((s : ℂ) + z)) (norm_nonneg ((s : ℂ) + z))
      rw [Rp_line, cis_arg] at d2
      have e0 : Rp (-I) 0 = (0, 1) := by unfold Rp; rw [cis_zero]; simp
      rw [e0, zero_sub] at d1
      have := d1.trans d2
      rwa [show -I + ((s : ℂ) + z) = s - I + z by ring] at this
    · have e : ‖(s : ℂ) + z‖ ^ 2 = (s + z.re) ^ 2 + z.im ^ 2 := by
        rw [← Complex.normSq_eq_norm_sq, Complex.normSq_apply]; simp; ring
      have : ‖(s : ℂ) + z‖ ≤ s + z.re + ε * ‖z‖ := by
        refine (sq_le_sq₀ (norm_nonneg _) (by have := mul_nonneg hε.le (norm_nonneg z); linarith)).1 ?_
        rw [e]
        have hi : z.im ^ 2 ≤ ‖z‖ ^ 2 := sq_le_sq' (by linarith [(abs_le.1 (Complex.abs_im_le_norm z)).1]) ((abs_le.1 (Complex.abs_im_le_norm z)).2)
        have hn := norm_nonneg z
        have hm : ‖z‖ ^ 2 ≤ 2 * (ε * ‖z‖) * (s + z.re) := by
          have : ‖z‖ ≤ 2 * ε * (s + z.re) := by nlinarith
          nlinarith
        nlinarith [sq_nonneg (ε * ‖z‖)]
      linarith
  · -- left, line, right
    set x := arg (lsr s z) with hx
    set r := Real.sqrt (‖(s : ℂ) - 2 * I + z‖ ^ 2 - 4) with hr
    have r0 : 0 < r := by linarith
    have hr2 : r ^ 2 = ‖(s : ℂ) - 2 * I + z‖ ^ 2 - 4 := Real.sq_sqrt (by by_contra hn; rw [hr, Real.sqrt_eq_zero_of_nonpos (by linarith)] at r0; exact r0.false)
    have hx1 : |x| < ε := h3.trans_le (min_le_left _ _)
    have hx2 : |x| < s / 4 := h3.trans_le ((min_le_right _ _).trans (min_le_left _ _))
    have hx3 : |x| < 1 := h3.trans_le ((min_le_right _ _).trans (min_le_right _ _))
    have hnd : ‖(r : ℂ) - 2 * I‖ ^ 2 = r ^ 2 + 4 := by
      rw [← Complex.normSq_eq_norm_sq, Complex.normSq_apply]; simp; ring
    have hn1 : ‖lsr s z‖ = 1 := by
      have e : ‖(s : ℂ) - 2 * I + z‖ = ‖(r : ℂ) - 2 * I‖ := by
        have : ‖(s : ℂ) - 2 * I + z‖ ^ 2 = ‖(r : ℂ) - 2 * I‖ ^ 2 := by rw [hnd, hr2]; ring
        exact (sq_eq_sq₀ (norm_nonneg _) (norm_nonneg _)).1 this
      unfold lsr
      rw [norm_div, ← hr, e, div_self (norm_ne_zero_iff.2 (lsr_den r))]
    have hu : (s : ℂ) - 2 * I + z = (r - 2 * I) * cis x := by
      have := cis_arg (lsr s z)
      rw [hn1, ofReal_one, one_mul, ← hx] at this
      rw [this]
      unfold lsr
      rw [← hr, mul_div_cancel₀ _ (lsr_den r)]
    have him' : z.im = r * Real.sin x + 2 * (1 - Real.cos x) := by
      have := congrArg Complex.im hu
      simp [cis] at this
      linarith
    have hre' : z.re = r * Real.cos x + 2 * Real.sin x - s := by
      have := congrArg Complex.re hu
      simp [cis] at this
      linarith
    have x0 : 0 ≤ x := by
      by_contra hneg
      push Not at hneg
      have a1 : Real.sin (x / 2) < 0 := Real.sin_neg_of_neg_of_neg_pi_lt (by linarith) (by linarith [(abs_lt.1 hx3).1, Real.pi_gt_three])
      have a2 : -(x / 2) ≥ -Real.sin (x / 2) := by
        have := Real.sin_le (x := -(x / 2)) (by linarith)
        rw [Real.sin_neg] at this; linarith
      have a3 : 1 / 2 ≤ Real.cos (x / 2) := by
        have := Real.one_sub_sq_div_two_le_cos (x := x / 2)
        have : x ^ 2 < 1 := by rw [← sq_abs]; nlinarith [abs_nonneg x]
        nlinarith
      have e1 : Real.sin x = 2 * Real.sin (x / 2) * Real.cos (x / 2) := by rw [← Real.sin_two_mul]; congr 1; ring
      have e2 : 1 - Real.cos x = 2 * Real.sin (x / 2) ^ 2 := by
        have := Real.cos_sq' (x / 2)
        have h2 := Real.cos_two_mul (x / 2)
        rw [show 2 * (x / 2) = x by ring] at h2
        linarith
      rw [e1, e2] at him'
      have a4 : 0 < r * Real.cos (x / 2) + 2 * Real.sin (x / 2) := by
        have := (abs_lt.1 hx2).1
        nlinarith
      nlinarith
    refine ⟨x, x + r, hx1.le, ?_, ?_⟩
    · have d1 := Drivable.left I (a := 0) (b := x) x0
      have e0 : Lp I 0 = (0, 1) := by unfold Lp; rw [cis_zero]; simp
      rw [e0, sub_zero, Lp_Rp I x] at d1
      have d2 := Drivable.line (Rp (I - 2 * I * cis x) x).1 x r0.le
      rw [Rp_line] at d2
      have := d1.trans d2
      rwa [show I - 2 * I * cis x + r * cis x = s - I + z by linear_combination -hu] at this
    · have hsx : 2 * (x - Real.sin x) ≤ s * (1 - Real.cos x) := by
        have x1 : x ≤ 1 := (le_abs_self x).trans hx3.le
        have x4 : x ≤ s / 4 := (le_abs_self x).trans hx2.le
        have k1 : x - Real.sin x ≤ x ^ 3 / 4 := by
          rcases x0.eq_or_lt with h | h
          · rw [← h]; simp
          · linarith [Real.sin_gt_sub_cube h, pow_pos h 3]
        have k2 : x ^ 2 / 4 ≤ 1 - Real.cos x := by
          have b := Real.cos_bound (x := x) (by rw [abs_of_nonneg x0]; exact x1)
          have b2 := (abs_le.1 b).2
          rw [abs_of_nonneg x0] at b2
          nlinarith [sq_nonneg x, pow_le_one₀ (n := 2) x0 x1]
        have k3 : x ^ 3 ≤ s / 4 * x ^ 2 := by nlinarith [sq_nonneg x]
        nlinarith [sq_nonneg x]
      have hz : (z * cis (-x)).re ≤ z.re + ε * ‖z‖ := by
        have e : z * cis (-x) = z + z * (cis (-x) - 1) := by ring
        rw [e, add_re]
        have b1 := (Complex.re_le_norm (z * (cis (-x) - 1)))
        rw [norm_mul] at b1
        have b2 := cis_near_one (-x)
        rw [abs_neg] at b2
        nlinarith [norm_nonneg z]
      have hz' : (z * cis (-x)).re = r - s * Real.cos x + 2 * Real.sin x := by
        have cs := Real.sin_sq_add_cos_sq x
        simp only [cis, mul_re, Real.cos_neg, Real.sin_neg]
        rw [hre', him']
        linear_combination r * cs
      linarith

/-- A line, a right turn and a left turn. -/
theorem shorter_SRL {s b d : ℝ} (hs : 0 < s) (hb : 0 < b) (hb' : b < 2 * Real.pi) (hd : 0 < d) :
    Shorter (0, 1) (move 1 d (move (-1) b (move 0 s (0, 1)))) (s + b + d) := by
  have e0 : move 0 s (0, 1) = Rp (s - I) 0 := by
    rw [show (1 : ℂ) = cis 0 from cis_zero.symm, move_line]; unfold Rp; rw [cis_zero]; refine Prod.ext ?_ rfl; simp
  rw [e0, move_right, zero_sub, Rp_Lp, move_left]
  have hcb : Real.cos b < 1 := by
    refine lt_of_le_of_ne (Real.cos_le_one b) fun h => ?_
    have := (Real.cos_eq_one_iff_of_lt_of_lt (by linarith) hb').1 h
    linarith
  set ε := (1 - Real.cos b) / 4 with hε
  have ε0 : 0 < ε := by rw [hε]; linarith
  set m := min ε (b / 4) with hm
  have m0 : 0 < m := lt_min ε0 (by linarith)
  have cz : Continuous fun h : ℝ => 2 * I * cis (-b) - 2 * I * cis (-b + h) := by
    have := cis_continuous
    fun_prop
  have tz : Tendsto (fun h : ℝ => 2 * I * cis (-b) - 2 * I * cis (-b + h)) (𝓝 0) (𝓝 0) := by
    have := cz.tendsto 0
    simpa using this
  have ev1 := (tz.eventually (head hs m0)).filter_mono (nhdsWithin_le_nhds (s := Ioi 0))
  have ev2 : ∀ᶠ h : ℝ in 𝓝[>] 0, Real.cos (h / 2 - b) < 1 - 2 * ε := by
    have c : Continuous fun h : ℝ => Real.cos (h / 2 - b) := by fun_prop
    have := c.tendsto 0
    rw [zero_div, zero_sub, Real.cos_neg] at this
    exact (this.eventually (gt_mem_nhds (by rw [hε] at ε0 ⊢; linarith))).filter_mono nhdsWithin_le_nhds
  have ev3 : ∀ᶠ h : ℝ in 𝓝[>] 0, h < min d (min (b / 4) 1) :=
    (gt_mem_nhds (lt_min hd (lt_min (by linarith) one_pos))).filter_mono nhdsWithin_le_nhds
  obtain ⟨h, ⟨φ, T, hφ, hT, hle⟩, h2, h3, h0⟩ := (ev1.and (ev2.and (ev3.and self_mem_nhdsWithin))).exists
  have h0 : 0 < h := h0
  have hd' : h < d := h3.trans_le (min_le_left _ _)
  have hb4 : h < b / 4 := h3.trans_le ((min_le_right _ _).trans (min_le_left _ _))
  have h1 : h < 1 := h3.trans_le ((min_le_right _ _).trans (min_le_right _ _))
  have hφ' : |φ| ≤ b / 4 := hφ.trans (min_le_right _ _)
  have d2 := Drivable.right ((s : ℂ) - I + (2 * I * cis (-b) - 2 * I * cis (-b + h))) (a := φ) (b := -b + h) (by linarith [(abs_le.1 hφ').1])
  rw [Rp_Lp _ (-b + h), show (s : ℂ) - I + (2 * I * cis (-b) - 2 * I * cis (-b + h)) + 2 * I * cis (-b + h) = s - I + 2 * I * cis (-b) by ring] at d2
  have d3 := Drivable.left ((s : ℂ) - I + 2 * I * cis (-b)) (a := -b + h) (b := -b + d) (by linarith)
  refine ⟨_, ?_, (hT.trans d2).trans d3⟩
  have hzr : (2 * I * cis (-b) - 2 * I * cis (-b + h)).re = 4 * (Real.sin (h / 2) * Real.cos (h / 2 - b)) := by
    have e := Real.sin_sub_sin (-b + h) (-b)
    rw [show (-b + h - -b) / 2 = h / 2 by ring, show (-b + h + -b) / 2 = h / 2 - b by ring] at e
    simp [cis]
    simp at e
    linarith
  have hzn : ‖2 * I * cis (-b) - 2 * I * cis (-b + h)‖ ≤ 2 * h := by
    have e : 2 * I * cis (-b) - 2 * I * cis (-b + h) = -(2 * I * cis (-b)) * (cis h - 1) := by rw [cis_add]; ring
    have n := cis_near_one h
    rw [abs_of_pos h0] at n
    have nb : ‖cis (-b)‖ = 1 := by
      have : ‖cis (-b)‖ ^ 2 = 1 := by
        rw [← Complex.normSq_eq_norm_sq, Complex.normSq_apply]
        have := Real.sin_sq_add_cos_sq (-b)
        simp only [cis]; linarith
      nlinarith [norm_nonneg (cis (-b))]
    rw [e, norm_mul, norm_neg, norm_mul, norm_mul, nb, Complex.norm_I]
    simp
    linarith
  have s1 := Real.sin_le (x := h / 2) (by linarith)
  have s0 : 0 ≤ Real.sin (h / 2) := Real.sin_nonneg_of_nonneg_of_le_pi (by linarith) (by linarith [Real.pi_gt_three])
  have c0 : 0 ≤ 1 - 2 * ε := by rw [hε]; linarith [Real.neg_one_le_cos b]
  have k1 : 4 * (Real.sin (h / 2) * Real.cos (h / 2 - b)) ≤ 2 * h * (1 - 2 * ε) := by
    have : Real.sin (h / 2) * Real.cos (h / 2 - b) ≤ Real.sin (h / 2) * (1 - 2 * ε) := mul_le_mul_of_nonneg_left h2.le s0
    nlinarith
  have k2 : m * ‖2 * I * cis (-b) - 2 * I * cis (-b + h)‖ ≤ ε * (2 * h) := mul_le_mul (min_le_left _ _) hzn (norm_nonneg _) ε0.le
  rw [hzr] at hle
  nlinarith

/-- A line, a right turn and a line. -/
theorem shorter_SRS {s b x : ℝ} (hs : 0 < s) (hb : 0 < b) (hb' : b < 2 * Real.pi) (hx : 0 < x) :
    Shorter (0, 1) (move 0 x (move (-1) b (move 0 s (0, 1)))) (s + b + x) := by
  have e0 : move 0 s (0, 1) = Rp (s - I) 0 := by
    rw [show (1 : ℂ) = cis 0 from cis_zero.symm, move_line]; unfold Rp; rw [cis_zero]; refine Prod.ext ?_ rfl; simp
  rw [e0, move_right, zero_sub]
  rw [show Rp (s - I) (-b) = ((Rp ((s : ℂ) - I) (-b)).1, cis (-b)) from rfl, move_line, Rp_line]
  have hcb : Real.cos b < 1 := by
    refine lt_of_le_of_ne (Real.cos_le_one b) fun h => ?_
    have := (Real.cos_eq_one_iff_of_lt_of_lt (by linarith) hb').1 h
    linarith
  set ε := (1 - Real.cos b) / 4 with hε
  have ε0 : 0 < ε := by rw [hε]; linarith
  set m := min ε (b / 4) with hm
  have m0 : 0 < m := lt_min ε0 (by linarith)
  have tz : Tendsto (fun h : ℝ => (h : ℂ) * cis (-b)) (𝓝 0) (𝓝 0) := by
    have c : Continuous fun h : ℝ => (h : ℂ) * cis (-b) := by fun_prop
    have := c.tendsto 0
    simpa using this
  have ev1 := (tz.eventually (head hs m0)).filter_mono (nhdsWithin_le_nhds (s := Ioi 0))
  have ev3 : ∀ᶠ h : ℝ in 𝓝[>] 0, h < x := (gt_mem_nhds hx).filter_mono nhdsWithin_le_nhds
  obtain ⟨h, ⟨φ, T, hφ, hT, hle⟩, h3, h0⟩ := (ev1.and (ev3.and self_mem_nhdsWithin)).exists
  have h0 : 0 < h := h0
  have hφ' : |φ| ≤ b / 4 := hφ.trans (min_le_right _ _)
  have d2 := Drivable.right ((s : ℂ) - I + h * cis (-b)) (a := φ) (b := -b) (by linarith [(abs_le.1 hφ').1])
  have d3 := Drivable.line (Rp ((s : ℂ) - I + h * cis (-b)) (-b)).1 (-b) (l := x - h) (by linarith)
  rw [Rp_line, show (s : ℂ) - I + h * cis (-b) + ((x - h : ℝ) : ℂ) * cis (-b) = s - I + x * cis (-b) by push_cast; ring] at d3
  refine ⟨_, ?_, (hT.trans d2).trans d3⟩
  have hzr : ((h : ℂ) * cis (-b)).re = h * Real.cos b := by simp [cis]
  have hzn : ‖(h : ℂ) * cis (-b)‖ ≤ h := by
    have : ‖(h : ℂ) * cis (-b)‖ ^ 2 = h ^ 2 := by
      rw [← Complex.normSq_eq_norm_sq, Complex.normSq_apply]
      have := Real.sin_sq_add_cos_sq (-b)
      simp only [cis, mul_re, mul_im, ofReal_re, ofReal_im]
      linear_combination h ^ 2 * this
    exact ((sq_eq_sq₀ (norm_nonneg _) h0.le).1 this).le
  have k2 : m * ‖(h : ℂ) * cis (-b)‖ ≤ ε * h := mul_le_mul (min_le_left _ _) hzn (norm_nonneg _) ε0.le
  rw [hzr] at hle
  have : Real.cos b = 1 - 4 * ε := by rw [hε]; ring
  rw [this] at hle
  nlinarith

/-! ## Four turns -/

/-- Left, right, left, right, both turns in the middle longer than π. -/
theorem shorter_LRLR (c0 : ℂ) (η : ℝ) {a b c d : ℝ} (ha : 0 < a) (hb : Real.pi < b) (hb' : b < 2 * Real.pi) (hc : Real.pi < c) (hc' : c < 2 * Real.pi) (hd : 0 < d) :
    Shorter (Lp c0 η) (move (-1) d (move 1 c (move (-1) b (move 1 a (Lp c0 η))))) (a + b + c + d) := by
  rw [move_left, Lp_Rp c0 (η + a), move_right, Rp_Lp _ (η + a - b), move_left, Lp_Rp _ (η + a - b + c), move_right]
  have pi0 := Real.pi_pos
  set γ := (b + c) / 2 with hγ
  set τ := |(b - c) / 2| with hτ
  have τ1 : τ < Real.pi / 2 := by rw [hτ, abs_lt]; constructor <;> linarith
  have ct : 0 < Real.cos τ := Real.cos_pos_of_mem_Ioo ⟨by linarith [abs_nonneg ((b - c) / 2)], τ1⟩
  have sγ : Real.sin γ < 0 := by
    have := Real.sin_pos_of_pos_of_lt_pi (x := γ - Real.pi) (by rw [hγ]; linarith) (by rw [hγ]; linarith)
    rw [Real.sin_sub_pi] at this; linarith
  have cγ : Real.cos γ < Real.cos τ := by
    rcases le_or_gt γ (3 * Real.pi / 2) with h | h
    · have : Real.cos γ ≤ 0 := Real.cos_nonpos_of_pi_div_two_le_of_le (by rw [hγ]; linarith) (by linarith)
      linarith
    · have e : Real.cos γ = Real.cos (2 * Real.pi - γ) := by rw [Real.cos_two_pi_sub]
      rw [e]
      refine Real.cos_lt_cos_of_nonneg_of_le_pi (abs_nonneg _) (by linarith) ?_
      rw [hτ, abs_lt]; constructor <;> (rw [hγ]; linarith)
  -- the sum of the two outer links
  set Z : ℝ → ℂ := fun ν => Real.cos τ + cis (-γ) * (cis ν - 1) / 2 with hZ
  have cZ : Continuous Z := by
    have := cis_continuous
    rw [hZ]; fun_prop
  have Z0 : Z 0 = ((Real.cos τ : ℝ) : ℂ) := by rw [hZ]; simp [cis_zero]
  have hZf : ∀ ν, Z ν = Real.cos τ + Real.sin (ν / 2) * I * cis (ν / 2 - γ) := by
    intro ν
    have e := half_chord (ν - γ) ν
    rw [show ν - γ - ν = -γ by ring, show ν - γ - ν / 2 = ν / 2 - γ by ring, show ν - γ = -γ + ν by ring, cis_add] at e
    rw [hZ]
    linear_combination e / 2
  have hZn : ∀ ν, ‖Z ν‖ ^ 2 = Real.cos τ ^ 2 + 2 * Real.cos τ * (Real.sin (ν / 2) * Real.sin (γ - ν / 2)) + Real.sin (ν / 2) ^ 2 := by
    intro ν
    have cs := Real.sin_sq_add_cos_sq (ν / 2 - γ)
    have e : Real.sin (γ - ν / 2) = -Real.sin (ν / 2 - γ) := by rw [← Real.sin_neg]; congr 1; ring
    rw [hZf, ← Complex.normSq_eq_norm_sq, Complex.normSq_apply, e]
    simp only [cis, add_re, add_im, mul_re, mul_im, ofReal_re, ofReal_im, I_re, I_im]
    linear_combination Real.sin (ν / 2) ^ 2 * cs
  have ev1 : ∀ᶠ ν : ℝ in 𝓝[>] 0, ‖Z ν‖ ≤ 1 := by
    rcases (abs_nonneg ((b - c) / 2)).eq_or_lt with h | h
    · have t0 : Real.cos τ = 1 := by rw [hτ, ← h, Real.cos_zero]
      have c : Continuous fun ν : ℝ => 2 * Real.sin (γ - ν / 2) + Real.sin (ν / 2) := by fun_prop
      have := c.tendsto 0
      simp only [zero_div, sub_zero, Real.sin_zero, add_zero] at this
      have e1 := (this.eventually (gt_mem_nhds (show 2 * Real.sin γ < 0 by linarith))).filter_mono (nhdsWithin_le_nhds (s := Ioi 0))
      have e2 : ∀ᶠ ν : ℝ in 𝓝[>] 0, ν < 1 := (gt_mem_nhds one_pos).filter_mono nhdsWithin_le_nhds
      filter_upwards [e1, e2, self_mem_nhdsWithin] with ν h1 h2 h3
      have h3 : 0 < ν := h3
      have s0 : 0 ≤ Real.sin (ν / 2) := Real.sin_nonneg_of_nonneg_of_le_pi (by linarith) (by linarith [Real.pi_gt_three])
      have := hZn ν
      rw [t0] at this
      refine (sq_le_one_iff₀ (norm_nonneg _)).1 ?_
      nlinarith
    · have t1 : Real.cos τ < 1 := by
        have := Real.cos_lt_cos_of_nonneg_of_le_pi (le_refl 0) (by linarith : τ ≤ Real.pi) h
        rwa [Real.cos_zero] at this
      have := (continuous_norm.comp cZ).tendsto 0
      simp only [Function.comp, Z0] at this
      rw [Complex.norm_real, Real.norm_of_nonneg ct.le] at this
      filter_upwards [(this.eventually (gt_mem_nhds t1)).filter_mono nhdsWithin_le_nhds] with ν h using h.le
  have tκ : Tendsto (fun ν => arg (Z ν)) (𝓝 0) (𝓝 0) := by
    have ca : ContinuousAt arg (Z 0) := by rw [Z0]; exact Complex.continuousAt_arg (Or.inl (by rw [Complex.ofReal_re]; exact ct))
    have := ca.tendsto.comp (cZ.tendsto 0)
    rwa [Z0, Complex.arg_ofReal_of_nonneg ct.le] at this
  have tτ : Tendsto (fun ν => Real.arccos ‖Z ν‖) (𝓝 0) (𝓝 τ) := by
    have := (Real.continuous_arccos.comp (continuous_norm.comp cZ)).tendsto 0
    simp only [Function.comp, Z0] at this
    rwa [Complex.norm_real, Real.norm_of_nonneg ct.le, Real.arccos_cos (abs_nonneg _) (by linarith)] at this
  -- room for the changes
  set m := min (min a d) (Real.pi / 4) with hm
  have m0 : 0 < m := lt_min (lt_min ha hd) (by linarith)
  have ev2 : ∀ᶠ ν : ℝ in 𝓝[>] 0, |arg (Z ν)| < m / 4 := by
    have := tκ.abs
    rw [abs_zero] at this
    exact (this.eventually (gt_mem_nhds (by linarith))).filter_mono nhdsWithin_le_nhds
  have ev3 : ∀ᶠ ν : ℝ in 𝓝[>] 0, |Real.arccos ‖Z ν‖ - τ| < m / 4 := by
    have := (tτ.sub_const τ).abs
    rw [sub_self, abs_zero] at this
    exact (this.eventually (gt_mem_nhds (by linarith))).filter_mono nhdsWithin_le_nhds
  have ev4 : ∀ᶠ ν : ℝ in 𝓝[>] 0, ν < m / 4 := (gt_mem_nhds (by linarith)).filter_mono nhdsWithin_le_nhds
  obtain ⟨ν, h1, h2, h3, h4, h0⟩ := (ev1.and (ev2.and (ev3.and (ev4.and self_mem_nhdsWithin)))).exists
  have h0 : 0 < ν := h0
  set κ := arg (Z ν) with hκ
  set t := Real.arccos ‖Z ν‖ with ht
  have hcos : Real.cos t = ‖Z ν‖ := Real.cos_arccos (by linarith [norm_nonneg (Z ν)]) h1
  have hZκ : (Real.cos t : ℂ) * cis κ = Z ν := by
    have := cis_arg (Z ν)
    rw [← hκ, ← hcos] at this
    exact this
  have m1 : m ≤ a := (min_le_left _ _).trans (min_le_left _ _)
  have m2 : m ≤ d := (min_le_left _ _).trans (min_le_right _ _)
  have m3 : m ≤ Real.pi / 4 := min_le_right _ _
  have κ1 := abs_lt.1 h2
  have t1 := abs_lt.1 h3
  have hκν : κ < ν / 2 := by
    by_contra hge
    push Not at hge
    have e : (Z ν * cis (-(ν / 2))).im = Real.sin (ν / 2) * (Real.cos γ - Real.cos τ) := by
      rw [hZf]
      have e1 : (Real.cos τ + Real.sin (ν / 2) * I * cis (ν / 2 - γ)) * cis (-(ν / 2)) = Real.cos τ * cis (-(ν / 2)) + Real.sin (ν / 2) * I * cis (-γ) := by
        rw [show -γ = ν / 2 - γ + -(ν / 2) by ring, cis_add]; ring
      rw [e1]
      simp only [cis, add_im, mul_re, mul_im, ofReal_re, ofReal_im, I_re, I_im, Real.cos_neg, Real.sin_neg]
      ring
    have e2 : (Z ν * cis (-(ν / 2))).im = Real.cos t * Real.sin (κ - ν / 2) := by
      rw [← hZκ, mul_assoc, ← cis_add]
      simp only [cis, mul_im, ofReal_re, ofReal_im, sub_eq_add_neg]
      ring
    have s0 : 0 < Real.sin (ν / 2) := Real.sin_pos_of_pos_of_lt_pi (by linarith) (by linarith)
    have s1 : 0 ≤ Real.sin (κ - ν / 2) := Real.sin_nonneg_of_nonneg_of_le_pi (by linarith) (by linarith)
    have : 0 ≤ Real.cos t * Real.sin (κ - ν / 2) := mul_nonneg (by rw [hcos]; exact norm_nonneg _) s1
    rw [← e2, e] at this
    nlinarith
  -- the sign of the difference
  obtain ⟨σ, hσ, hτσ⟩ : ∃ σ : ℝ, (σ = 1 ∨ σ = -1) ∧ (b - c) / 2 = σ * τ := by
    rcases le_total 0 ((b - c) / 2) with h | h
    · exact ⟨1, Or.inl rfl, by rw [hτ, abs_of_nonneg h, one_mul]⟩
    · exact ⟨-1, Or.inr rfl, by rw [hτ, abs_of_nonpos h]; ring⟩
  have hσt : |σ * t - σ * τ| < m / 4 := by
    rw [← mul_sub, abs_mul]
    have : |σ| = 1 := by rcases hσ with h | h <;> rw [h] <;> simp
    rw [this, one_mul]; exact h3
  have st := abs_lt.1 hσt
  set μ := η + a - (b - c) / 2 with hμ
  set A1 := μ + κ + σ * t with hA1
  set A2 := μ - γ + ν with hA2
  set A3 := μ + κ - σ * t with hA3
  have hcosσ : Real.cos (σ * t) = Real.cos t := by rcases hσ with h | h <;> rw [h] <;> simp
  have hcosσ' : Real.cos (σ * τ) = Real.cos τ := by rcases hσ with h | h <;> rw [h] <;> simp
  have two : ∀ x y : ℝ, cis (x + y) + cis (x - y) = 2 * Real.cos y * cis x := by
    intro x y
    rw [sub_eq_add_neg, cis_add, cis_add]
    have : cis y + cis (-y) = 2 * Real.cos y := by
      apply Complex.ext <;> simp only [cis, add_re, add_im, mul_re, mul_im, ofReal_re, ofReal_im, re_ofNat, im_ofNat, Real.cos_neg, Real.sin_neg] <;> ring
    linear_combination cis x * this
  have key : cis A1 - cis A2 + cis A3 = cis (η + a) - cis (η + a - b) + cis (η + a - b + c) := by
    have k1 := two (μ + κ) (σ * t)
    rw [hcosσ, cis_add μ κ] at k1
    have k2 := two μ (σ * τ)
    rw [hcosσ'] at k2
    rw [show η + a = μ + σ * τ by rw [hμ, ← hτσ]; ring, show μ + σ * τ - b + c = μ - σ * τ by rw [← hτσ]; ring, show μ + σ * τ - b = μ + -γ by rw [← hτσ, hγ]; ring]
    have k3 : cis A2 = cis μ * (cis (-γ) * cis ν) := by rw [hA2, ← cis_add, ← cis_add]; congr 1; ring
    rw [k3, cis_add μ (-γ), show A1 = μ + κ + σ * t from rfl, show A3 = μ + κ - σ * t from rfl]
    have hZν : Z ν = Real.cos τ + cis (-γ) * (cis ν - 1) / 2 := rfl
    linear_combination k1 - k2 + 2 * cis μ * (hZκ.trans hZν)
  have d1 := Drivable.left c0 (a := η) (b := A1) (by rw [hA1, hμ, hτσ]; linarith)
  rw [Lp_Rp c0 A1] at d1
  have d2 := Drivable.right (c0 - 2 * I * cis A1) (a := A1) (b := A2) (by rw [hA1, hA2, hγ]; linarith)
  rw [Rp_Lp _ A2] at d2
  have d3 := Drivable.left (c0 - 2 * I * cis A1 + 2 * I * cis A2) (a := A2) (b := A3) (by rw [hA3, hA2, hγ]; linarith)
  rw [Lp_Rp _ A3] at d3
  have hcen : c0 - 2 * I * cis A1 + 2 * I * cis A2 - 2 * I * cis A3 = c0 - 2 * I * cis (η + a) + 2 * I * cis (η + a - b) - 2 * I * cis (η + a - b + c) := by
    linear_combination -2 * I * key
  rw [hcen] at d3
  have d4 := Drivable.right (c0 - 2 * I * cis (η + a) + 2 * I * cis (η + a - b) - 2 * I * cis (η + a - b + c)) (a := A3) (b := η + a - b + c - d) (by rw [hA3, hμ]; linarith)
  refine ⟨_, ?_, ((d1.trans d2).trans d3).trans d4⟩
  rw [hA1, hA2, hA3, hμ, hγ]
  linarith

end Verif.Car
