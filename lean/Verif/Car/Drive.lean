import Verif.Car.Dubins
import Mathlib.Analysis.Calculus.MeanValue
import Mathlib.Analysis.Real.Pi.Bounds
import Mathlib.MeasureTheory.Integral.IntervalIntegral.FundThmCalculus
set_option linter.unusedSectionVars false

/-!
# All the ways of driving forward (C87)

Specification of "as short as possible": a car drives at unit speed, its heading is a function of time that is Lipschitz, of constant 1 when the minimal turning radius is 1.
This file shows that a short drive is never shorter than some turn, line, turn with the same ends.
-/
namespace Verif.Car
open Complex Set Filter Topology
open scoped Interval ComplexConjugate

/-- The heading changes at most as fast as on the circle of radius 1. -/
def Lip (θ : ℝ → ℝ) : Prop := ∀ s t, s ≤ t → |θ t - θ s| ≤ t - s

/-- A car can drive forward from a pose to another one along a curve of length `T` whose radius is never smaller than 1. -/
def Drivable (p q : Pose) (T : ℝ) : Prop :=
  0 ≤ T ∧ ∃ θ : ℝ → ℝ, Lip θ ∧ p.2 = cis (θ 0) ∧ q.2 = cis (θ T) ∧ q.1 = p.1 + ∫ t in (0 : ℝ)..T, cis (θ t)

theorem Lip.continuous {θ : ℝ → ℝ} (h : Lip θ) : Continuous θ := by
  have : LipschitzWith 1 θ := by
    refine LipschitzWith.of_dist_le_mul fun x y => ?_
    rw [Real.dist_eq, Real.dist_eq, NNReal.coe_one, one_mul]
    rcases le_total x y with hh | hh
    · rw [abs_sub_comm, abs_sub_comm x y, abs_of_nonneg (sub_nonneg.2 hh)]; exact h x y hh
    · rw [abs_of_nonneg (sub_nonneg.2 hh)]; exact h y x hh
  exact this.continuous

theorem cis_continuous : Continuous cis := by
  have : cis = fun x : ℝ => exp (x * I) := by funext x; exact cis_eq_exp x
  rw [this]; fun_prop

theorem Lip.cis {θ : ℝ → ℝ} (h : Lip θ) : Continuous fun t => cis (θ t) := cis_continuous.comp h.continuous

theorem cis_hasDerivAt (k a t : ℝ) : HasDerivAt (fun t : ℝ => Car.cis (a + k * t)) (I * k * Car.cis (a + k * t)) t := by
  have h1 : HasDerivAt (fun t : ℝ => ((a + k * t : ℝ) : ℂ) * I) (k * I) t := by
    have : HasDerivAt (fun t : ℝ => a + k * t) k t := by simpa using ((hasDerivAt_id t).const_mul k).const_add a
    exact this.ofReal_comp.mul_const I
  have h2 := h1.cexp
  simp only [cis_eq_exp]
  convert h2 using 1
  ring

theorem disp_hasDerivAt (k t : ℝ) : HasDerivAt (disp k) (Car.cis (k * t)) t := by
  by_cases hk : k = 0
  · subst hk
    rw [zero_mul, cis_zero]
    have : disp 0 = fun t : ℝ => (t : ℂ) := by funext t; exact disp_line t
    rw [this]
    exact (hasDerivAt_id t).ofReal_comp
  · have hk' : (k : ℂ) ≠ 0 := by exact_mod_cast hk
    have e : disp k = fun t => -I / k * (Car.cis (0 + k * t) - 1) := by
      funext t
      unfold disp Car.cis
      rw [if_neg hk, Complex.ext_iff, zero_add]
      have : -I / (k : ℂ) = ⟨0, -1 / k⟩ := by
        rw [div_eq_iff hk', Complex.ext_iff]; simp [hk]
      rw [this]
      constructor <;> simp <;> ring
    rw [e]
    have h := ((cis_hasDerivAt k 0 t).sub_const 1).const_mul (-I / (k : ℂ))
    refine h.congr_deriv ?_
    rw [zero_add]
    field_simp
    linear_combination (-Car.cis (k * t)) * I_sq

theorem integral_cis (a k T : ℝ) : (∫ t in (0 : ℝ)..T, Car.cis (a + k * t)) = Car.cis a * disp k T := by
  have h : ∀ t ∈ uIcc 0 T, HasDerivAt (fun t => Car.cis a * disp k t) (Car.cis (a + k * t)) t := by
    intro t _
    rw [cis_add]
    exact (disp_hasDerivAt k t).const_mul _
  rw [intervalIntegral.integral_eq_sub_of_hasDerivAt h, disp_zero, mul_zero, sub_zero]
  exact (cis_continuous.comp (by fun_prop)).intervalIntegrable _ _

/-! ## Operations -/

/-- A segment of curvature at most 1. -/
theorem Drivable.seg {p : Pose} (hp : ∃ a, p.2 = cis a) {k l : ℝ} (hk : |k| ≤ 1) (hl : 0 ≤ l) : Drivable p (move k l p) l := by
  obtain ⟨a, ha⟩ := hp
  refine ⟨hl, fun t => a + k * t, ?_, by simpa using ha, ?_, ?_⟩
  · intro s t hst
    have : a + k * t - (a + k * s) = k * (t - s) := by ring
    rw [this, abs_mul, abs_of_nonneg (sub_nonneg.2 hst)]
    exact mul_le_of_le_one_left (sub_nonneg.2 hst) hk
  · unfold move; simp only; rw [cis_add, ha]
  · unfold move; simp only; rw [integral_cis, ha]

theorem Drivable.refl {p : Pose} (hp : ∃ a, p.2 = cis a) : Drivable p p 0 := by
  have := Drivable.seg hp (k := 0) (l := 0) (by simp) le_rfl
  rwa [move_zero] at this

theorem Drivable.start {p q : Pose} {T : ℝ} (h : Drivable p q T) : ∃ a, p.2 = cis a := by
  obtain ⟨_, θ, _, h, _⟩ := h; exact ⟨_, h⟩

theorem Drivable.finish {p q : Pose} {T : ℝ} (h : Drivable p q T) : ∃ a, q.2 = cis a := by
  obtain ⟨_, θ, _, _, h, _⟩ := h; exact ⟨_, h⟩

theorem cis_int (x : ℝ) (n : ℤ) : cis (x + n * (2 * Real.pi)) = cis x := by
  unfold cis; rw [Real.cos_add_int_mul_two_pi, Real.sin_add_int_mul_two_pi]

/-- Driving along two curves. -/
theorem Drivable.trans {p q r : Pose} {S T : ℝ} (h1 : Drivable p q S) (h2 : Drivable q r T) : Drivable p r (S + T) := by
  obtain ⟨hS, θ, lθ, p0, q0, P⟩ := h1
  obtain ⟨hT, η, lη, q1, r1, Q⟩ := h2
  obtain ⟨n, hn⟩ := cis_inj (q0.symm.trans q1)
  have hl : ∀ t, t ≤ S → θ (min t S) + (η (max (t - S) 0) - η 0) = θ t := by
    intro t ht; rw [min_eq_left ht, max_eq_right (by linarith)]; ring
  have hr : ∀ t, S ≤ t → θ (min t S) + (η (max (t - S) 0) - η 0) = η (t - S) + n * (2 * Real.pi) := by
    intro t ht; rw [min_eq_right ht, max_eq_left (by linarith), hn]; ring
  refine ⟨add_nonneg hS hT, fun t => θ (min t S) + (η (max (t - S) 0) - η 0), ?_, ?_, ?_, ?_⟩
  · intro s t hst
    have a1 := lθ (min s S) (min t S) (min_le_min_right S hst)
    have a2 := lη (max (s - S) 0) (max (t - S) 0) (max_le_max_right 0 (by linarith))
    have e : θ (min t S) + (η (max (t - S) 0) - η 0) - (θ (min s S) + (η (max (s - S) 0) - η 0)) = (θ (min t S) - θ (min s S)) + (η (max (t - S) 0) - η (max (s - S) 0)) := by ring
    rw [e]
    refine (abs_add_le _ _).trans ((add_le_add a1 a2).trans ?_)
    rcases le_total s S with h1 | h1 <;> rcases le_total t S with h2 | h2
    · rw [min_eq_left h1, min_eq_left h2, max_eq_right (by linarith), max_eq_right (by linarith)]; linarith
    · rw [min_eq_left h1, min_eq_right h2, max_eq_right (show s - S ≤ 0 by linarith), max_eq_left (show 0 ≤ t - S by linarith)]; linarith
    · have : s = t := by linarith
      subst this; simp
    · rw [min_eq_right h1, min_eq_right h2, max_eq_left (by linarith), max_eq_left (by linarith)]; linarith
  · show p.2 = cis (θ (min 0 S) + (η (max (0 - S) 0) - η 0))
    rw [p0, hl 0 hS]
  · show r.2 = cis (θ (min (S + T) S) + (η (max (S + T - S) 0) - η 0))
    rw [r1, hr (S + T) (by linarith), cis_int, add_sub_cancel_left]
  · have hc : Continuous fun t => cis (θ (min t S) + (η (max (t - S) 0) - η 0)) := by
      refine cis_continuous.comp ?_
      have := lθ.continuous
      have := lη.continuous
      fun_prop
    rw [← intervalIntegral.integral_add_adjacent_intervals (b := S) (hc.intervalIntegrable _ _) (hc.intervalIntegrable _ _)]
    have e1 : (∫ t in (0 : ℝ)..S, cis (θ (min t S) + (η (max (t - S) 0) - η 0))) = ∫ t in (0 : ℝ)..S, cis (θ t) :=
      intervalIntegral.integral_congr fun t ht => by
        rw [uIcc_of_le hS] at ht
        show cis (θ (min t S) + (η (max (t - S) 0) - η 0)) = cis (θ t)
        rw [hl t ht.2]
    have e2 : (∫ t in S..(S + T), cis (θ (min t S) + (η (max (t - S) 0) - η 0))) = ∫ t in (0 : ℝ)..T, cis (η t) := by
      have : (∫ t in S..(S + T), cis (θ (min t S) + (η (max (t - S) 0) - η 0))) = ∫ t in S..(S + T), cis (η (t - S)) :=
        intervalIntegral.integral_congr fun t ht => by
          rw [uIcc_of_le (by linarith)] at ht
          show cis (θ (min t S) + (η (max (t - S) 0) - η 0)) = cis (η (t - S))
          rw [hr t ht.1, cis_int]
      rw [this, intervalIntegral.integral_comp_sub_right (fun t => cis (η t)) S]
      simp
    rw [e1, e2, Q, P]; ring

/-- Cutting a drive. -/
theorem Drivable.split {p q : Pose} {S T : ℝ} (h : Drivable p q (S + T)) (hS : 0 ≤ S) (hT : 0 ≤ T) : ∃ r, Drivable p r S ∧ Drivable r q T := by
  obtain ⟨_, θ, l, p0, q0, P⟩ := h
  refine ⟨(p.1 + ∫ t in (0 : ℝ)..S, cis (θ t), cis (θ S)), ⟨hS, θ, l, p0, rfl, rfl⟩, hT, fun t => θ (t + S), ?_, by simp, by rw [q0, add_comm], ?_⟩
  · intro s t hst; have := l (s + S) (t + S) (by linarith); linarith
  · have e : (∫ t in (0 : ℝ)..T, cis (θ (t + S))) = ∫ t in S..(S + T), cis (θ t) := by
      rw [intervalIntegral.integral_comp_add_right (fun t => cis (θ t)) S]; simp [add_comm]
    simp only
    rw [e, P, add_assoc, intervalIntegral.integral_add_adjacent_intervals (l.cis.intervalIntegrable _ _) (l.cis.intervalIntegrable _ _)]

/-- The pose with the opposite heading. -/
def turnBack (p : Pose) : Pose := (p.1, -p.2)

theorem cis_add_pi (x : ℝ) : cis (x + Real.pi) = -cis x := by
  unfold cis; rw [Real.cos_add_pi, Real.sin_add_pi, Complex.ext_iff]; simp

/-- Driving in the other direction. -/
theorem Drivable.back {p q : Pose} {T : ℝ} (h : Drivable p q T) : Drivable (turnBack q) (turnBack p) T := by
  obtain ⟨hT, θ, l, p0, q0, P⟩ := h
  refine ⟨hT, fun t => θ (T - t) + Real.pi, ?_, ?_, ?_, ?_⟩
  · intro s t hst
    have := l (T - t) (T - s) (by linarith)
    rw [show θ (T - t) + Real.pi - (θ (T - s) + Real.pi) = -(θ (T - s) - θ (T - t)) by ring, abs_neg]
    linarith
  · rw [cis_add_pi, sub_zero, ← q0]; rfl
  · rw [cis_add_pi, sub_self, ← p0]; rfl
  · simp only [turnBack, cis_add_pi]
    rw [intervalIntegral.integral_neg, intervalIntegral.integral_comp_sub_left (fun t => cis (θ t)) T]
    simp only [sub_self, sub_zero]
    rw [P]; ring

/-- The mirror image of a pose. -/
noncomputable def mirror (p : Pose) : Pose := (conj p.1, conj p.2)

theorem cis_conj (x : ℝ) : conj (cis x) = cis (-x) := by
  unfold cis; rw [Complex.ext_iff]; simp

theorem Drivable.mirror {p q : Pose} {T : ℝ} (h : Drivable p q T) : Drivable (mirror p) (mirror q) T := by
  obtain ⟨hT, θ, l, p0, q0, P⟩ := h
  refine ⟨hT, fun t => -θ t, ?_, ?_, ?_, ?_⟩
  · intro s t hst
    rw [show -θ t - -θ s = -(θ t - θ s) by ring, abs_neg]; exact l s t hst
  · rw [← cis_conj, ← p0]; rfl
  · rw [← cis_conj, ← q0]; rfl
  · simp only [Car.mirror, ← cis_conj]
    rw [P, map_add]
    congr 1
    have := (Complex.conjCLE : ℂ ≃L[ℝ] ℂ).toContinuousLinearMap.intervalIntegral_comp_comm (l.cis.intervalIntegrable (μ := MeasureTheory.volume) 0 T)
    simpa using this.symm

/-- Change of frame. -/
noncomputable def frame (A : ℂ) (a : ℝ) (p : Pose) : Pose := (A + cis a * p.1, cis a * p.2)

theorem Drivable.frame {p q : Pose} {T : ℝ} (h : Drivable p q T) (A : ℂ) (a : ℝ) : Drivable (frame A a p) (frame A a q) T := by
  obtain ⟨hT, θ, l, p0, q0, P⟩ := h
  refine ⟨hT, fun t => a + θ t, ?_, ?_, ?_, ?_⟩
  · intro s t hst
    rw [show a + θ t - (a + θ s) = θ t - θ s by ring]; exact l s t hst
  · rw [cis_add, ← p0]; rfl
  · rw [cis_add, ← q0]; rfl
  · simp only [Car.frame, cis_add]
    rw [intervalIntegral.integral_const_mul, P]; ring

/-! ## Headings that are swept -/

/-- A car that turns from a heading to another one spends at least the time needed to turn at each heading in between. -/
theorem sweep {θ : ℝ → ℝ} (hθ : Lip θ) {a b m M : ℝ} (hab : a ≤ b) (hr : ∀ t ∈ Icc a b, θ t ∈ Icc m M) {g : ℝ → ℝ} (hg : Continuous g) (g0 : ∀ s ∈ Icc m M, 0 ≤ g s)
    {e : ℝ} (he : e = 1 ∨ e = -1) : e * (∫ s in (θ a)..(θ b), g s) ≤ ∫ t in a..b, g (θ t) := by
  have hc : Continuous fun t => g (θ t) := hg.comp hθ.continuous
  have e1 : |e| = 1 := by rcases he with rfl | rfl <;> simp
  have hG : ∀ x, HasDerivAt (fun x => ∫ s in (θ a)..x, g s) (g x) x := fun x =>
    intervalIntegral.integral_hasDerivAt_right (hg.intervalIntegrable _ _) (hg.stronglyMeasurableAtFilter _ _) hg.continuousAt
  have hGc : Continuous fun x => ∫ s in (θ a)..x, g s := continuous_iff_continuousAt.2 fun x => (hG x).continuousAt
  refine image_le_of_liminf_slope_right_le_deriv_boundary (f := fun t => e * ∫ s in (θ a)..(θ t), g s) (B := fun t => ∫ u in a..t, g (θ u)) (B' := fun t => g (θ t))
    (a := a) (b := b) ?_ (by simp) ?_ ?_ ?_ (right_mem_Icc.2 hab)
  · exact ((hGc.comp hθ.continuous).const_mul e).continuousOn
  · have : ∀ x, HasDerivAt (fun t => ∫ u in a..t, g (θ u)) (g (θ x)) x := fun x =>
      intervalIntegral.integral_hasDerivAt_right (hc.intervalIntegrable _ _) (hc.stronglyMeasurableAtFilter _ _) hc.continuousAt
    exact fun x _ => (this x).continuousAt.continuousWithinAt
  · intro x _
    exact (intervalIntegral.integral_hasDerivAt_right (hc.intervalIntegrable _ _) (hc.stronglyMeasurableAtFilter _ _) hc.continuousAt).hasDerivWithinAt
  · intro x hx r hr'
    refine Eventually.frequently ?_
    obtain ⟨r', h1, h2⟩ := exists_between hr'
    -- near x the function is smaller than r'
    have hU : ∀ᶠ z in 𝓝 (θ x), g z < r' := (hg.tendsto (θ x)).eventually (eventually_lt_nhds h1)
    rw [Metric.eventually_nhds_iff] at hU
    obtain ⟨d, hd, hU⟩ := hU
    have hb : ∀ᶠ z in 𝓝[>] x, z < min b (x + d) := by
      refine nhdsWithin_le_nhds (eventually_lt_nhds ?_)
      exact lt_min hx.2 (by linarith)
    filter_upwards [hb, self_mem_nhdsWithin] with z hz hxz
    have hxz : x < z := hxz
    have hzb : z < b := lt_of_lt_of_le hz (min_le_left _ _)
    have hzd : z < x + d := lt_of_lt_of_le hz (min_le_right _ _)
    have hl := hθ x z hxz.le
    have hbound : ‖∫ s in (θ x)..(θ z), g s‖ ≤ r' * |θ z - θ x| := by
      refine intervalIntegral.norm_integral_le_of_norm_le_const fun s hs => ?_
      have hs' : s ∈ uIcc (θ x) (θ z) := uIoc_subset_uIcc hs
      have hmem : s ∈ Icc m M := by
        have hx' := hr x ⟨hx.1, hx.2.le⟩
        have hz' := hr z ⟨by linarith [hx.1], hzb.le⟩
        exact uIcc_subset_Icc hx' hz' hs'
      rw [Real.norm_of_nonneg (g0 s hmem)]
      refine (hU ?_).le
      rw [Real.dist_eq]
      have : |s - θ x| ≤ |θ z - θ x| := abs_sub_left_of_mem_uIcc hs'
      linarith
    have r0 : 0 ≤ r' := (g0 _ (hr x ⟨hx.1, hx.2.le⟩)).trans h1.le
    rw [slope_def_field, div_lt_iff₀ (sub_pos.2 hxz)]
    have hsplit : e * (∫ s in (θ a)..(θ z), g s) - e * (∫ s in (θ a)..(θ x), g s) = e * ∫ s in (θ x)..(θ z), g s := by
      rw [← intervalIntegral.integral_add_adjacent_intervals (a := θ a) (b := θ x) (c := θ z) (hg.intervalIntegrable _ _) (hg.intervalIntegrable _ _)]; ring
    rw [hsplit]
    calc e * ∫ s in (θ x)..(θ z), g s ≤ |e * ∫ s in (θ x)..(θ z), g s| := le_abs_self _
      _ = ‖∫ s in (θ x)..(θ z), g s‖ := by rw [abs_mul, e1, one_mul, Real.norm_eq_abs]
      _ ≤ r' * |θ z - θ x| := hbound
      _ ≤ r' * (z - x) := mul_le_mul_of_nonneg_left hl r0
      _ < r * (z - x) := mul_lt_mul_of_pos_right h2 (sub_pos.2 hxz)

/-- A car whose heading is `φ` at some time. -/
theorem pass {θ : ℝ → ℝ} (hθ : Lip θ) {T c m M : ℝ} (hc : c ∈ Icc 0 T) (hr : ∀ t ∈ Icc 0 T, θ t ∈ Icc m M) {g : ℝ → ℝ} (hg : Continuous g) (g0 : ∀ s ∈ Icc m M, 0 ≤ g s)
    {e f : ℝ} (he : e = 1 ∨ e = -1) (hf : f = 1 ∨ f = -1) : e * (∫ s in (θ 0)..(θ c), g s) + f * (∫ s in (θ c)..(θ T), g s) ≤ ∫ t in (0 : ℝ)..T, g (θ t) := by
  have hcc : Continuous fun t => g (θ t) := hg.comp hθ.continuous
  rw [← intervalIntegral.integral_add_adjacent_intervals (b := c) (hcc.intervalIntegrable _ _) (hcc.intervalIntegrable _ _)]
  exact add_le_add (sweep hθ hc.1 (fun t ht => hr t ⟨ht.1, ht.2.trans hc.2⟩) hg g0 he) (sweep hθ hc.2 (fun t ht => hr t ⟨hc.1.trans ht.1, ht.2⟩) hg g0 hf)

/-! ## Short drives -/

theorem re_integral (w : ℂ) {u : ℝ → ℂ} (hu : Continuous u) (a b : ℝ) : (w * ∫ t in a..b, u t).re = ∫ t in a..b, (w * u t).re := by
  rw [← intervalIntegral.integral_const_mul]
  have := Complex.reCLM.intervalIntegral_comp_comm ((continuous_const.mul hu : Continuous fun t => w * u t).intervalIntegrable (μ := MeasureTheory.volume) a b)
  simpa using this.symm

/-- Direction of a turn. -/
noncomputable def dir (a b : ℝ) : ℝ := if a ≤ b then 1 else -1

theorem dir_unit (a b : ℝ) : dir a b = 1 ∨ dir a b = -1 := by unfold dir; split <;> simp

theorem dir_abs (a b : ℝ) : dir a b * (b - a) = |b - a| := by
  unfold dir
  split
  · next h => rw [one_mul, abs_of_nonneg (by linarith)]
  · next h => rw [abs_of_nonpos (by linarith)]; ring

/-- Displacement of a turn from a heading to another one. -/
noncomputable def arc (a b : ℝ) : ℂ := dir a b * ∫ s in a..b, cis s

theorem arc_eq (a b : ℝ) : arc a b = cis a * disp (dir a b) |b - a| := by
  unfold arc
  rw [← integral_cis]
  rcases le_or_gt a b with h | h
  · rw [show dir a b = 1 by unfold dir; rw [if_pos h], abs_of_nonneg (by linarith)]
    have := intervalIntegral.integral_comp_add_left (a := 0) (b := b - a) (fun t => cis t) a
    simp only [one_mul, ofReal_one]
    rw [this]; simp
  · rw [show dir a b = -1 by unfold dir; rw [if_neg (not_le.2 h)], abs_of_nonpos (by linarith)]
    have e : (∫ t in (0 : ℝ)..(-(b - a)), cis (a + -1 * t)) = ∫ t in (0 : ℝ)..(-(b - a)), cis (a - t) :=
      intervalIntegral.integral_congr fun t _ => by
        show cis (a + -1 * t) = cis (a - t)
        rw [show a + -1 * t = a - t by ring]
    rw [e, intervalIntegral.integral_comp_sub_left (fun t => cis t) a, intervalIntegral.integral_symm]
    simp

theorem arc_continuous_right (a : ℝ) : Continuous (arc a) := by
  have hJ : Continuous fun b => ∫ s in a..b, cis s := intervalIntegral.continuous_primitive (fun x y => cis_continuous.intervalIntegrable x y) a
  have : arc a = fun b => if a ≤ b then (∫ s in a..b, cis s) else -∫ s in a..b, cis s := by
    funext b; unfold arc dir; split <;> simp
  rw [this]
  refine Continuous.if_le hJ hJ.neg continuous_const continuous_id ?_
  rintro b rfl; simp

theorem arc_continuous_left (b : ℝ) : Continuous fun a => arc a b := by
  have hJ : Continuous fun a => ∫ s in a..b, cis s := by
    have := (intervalIntegral.continuous_primitive (fun x y => cis_continuous.intervalIntegrable x y) b : Continuous fun a => ∫ s in b..a, cis s).neg
    refine this.congr fun a => ?_
    show -(∫ s in b..a, cis s) = _
    rw [← intervalIntegral.integral_symm]
  have : (fun a => arc a b) = fun a => if a ≤ b then (∫ s in a..b, cis s) else -∫ s in a..b, cis s := by
    funext a; unfold arc dir; split <;> simp
  rw [this]
  refine Continuous.if_le hJ hJ.neg continuous_id continuous_const ?_
  rintro a rfl; simp

theorem cis_mul_re (w : ℝ) (s : ℝ) : (cis (-w) * cis s).re = Real.cos (s - w) := by
  rw [← cis_add, show -w + s = s - w by ring]; rfl

theorem cis_mul_im (w : ℝ) (s : ℝ) : (cis (-w) * cis s).im = Real.sin (s - w) := by
  rw [← cis_add, show -w + s = s - w by ring]; rfl

/-- A drive of length at most 1 is not shorter than a turn, a line and a turn. -/
theorem Drivable.short {p q : Pose} {T : ℝ} (h : Drivable p q T) (h1 : T ≤ 1) :
    ∃ e f x y z : ℝ, (e = 1 ∨ e = -1) ∧ (f = 1 ∨ f = -1) ∧ 0 ≤ x ∧ 0 ≤ y ∧ 0 ≤ z ∧ x + y + z ≤ T ∧ move f z (move 0 y (move e x p)) = q := by
  obtain ⟨hT, θ, l, p0, q0, P⟩ := h
  have hcont := l.continuous
  obtain ⟨tm, htm, hmin⟩ := isCompact_Icc.exists_isMinOn (nonempty_Icc.2 hT) hcont.continuousOn
  obtain ⟨tM, htM, hmax⟩ := isCompact_Icc.exists_isMaxOn (nonempty_Icc.2 hT) hcont.continuousOn
  set m := θ tm with hm
  set M := θ tM with hM
  have hr : ∀ t ∈ Icc 0 T, θ t ∈ Icc m M := fun t ht => ⟨hmin ht, hmax ht⟩
  have hmM : m ≤ M := hmax htm
  have hw : M - m ≤ 1 := by
    have : |M - m| ≤ 1 := by
      rcases le_total tm tM with hh | hh
      · have := l tm tM hh; rw [← hm, ← hM] at this; linarith [htm.1, htM.2]
      · have := l tM tm hh; rw [← hm, ← hM, abs_sub_comm] at this; linarith [htm.2, htM.1]
    exact (le_abs_self _).trans this
  have hpi : (1 : ℝ) < Real.pi / 2 := by have := Real.pi_gt_three; linarith
  set N : ℝ → ℂ := fun φ => (∫ t in (0 : ℝ)..T, cis (θ t)) - arc (θ 0) φ - arc φ (θ T) with hN
  -- time at which a heading is met
  have htime : ∀ φ ∈ Icc m M, ∃ c ∈ Icc 0 T, θ c = φ := by
    intro φ hφ
    have hconn : IsPreconnected (θ '' Icc 0 T) := isPreconnected_Icc.image _ hcont.continuousOn
    have := hconn.Icc_subset (mem_image_of_mem θ htm) (mem_image_of_mem θ htM) hφ
    obtain ⟨c, hc, e⟩ := this
    exact ⟨c, hc, e⟩
  -- the key inequality
  have key : ∀ φ ∈ Icc m M, ∀ w : ℂ, (∀ s ∈ Icc m M, 0 ≤ (w * cis s).re) → 0 ≤ (w * N φ).re := by
    intro φ hφ w hw0
    obtain ⟨c, hc, rfl⟩ := htime φ hφ
    have hg : Continuous fun s => (w * cis s).re := Complex.continuous_re.comp (continuous_const.mul cis_continuous)
    have := pass l hc hr hg hw0 (dir_unit (θ 0) (θ c)) (dir_unit (θ c) (θ T))
    rw [← re_integral w cis_continuous, ← re_integral w cis_continuous, ← re_integral w l.cis] at this
    simp only [hN, arc, mul_sub, Complex.sub_re]
    have e1 : ∀ (r : ℝ) (z : ℂ), (w * ((r : ℂ) * z)).re = r * (w * z).re := by
      intro r z; rw [show w * ((r : ℂ) * z) = (r : ℂ) * (w * z) by ring, Complex.re_ofReal_mul]
    rw [e1, e1]
    linarith
  -- a heading for which the remainder is along the heading
  obtain ⟨φ, hφ, hφ0⟩ : ∃ φ ∈ Icc m M, (cis (-φ) * N φ).im = 0 := by
    have hc : ContinuousOn (fun φ => (cis (-φ) * N φ).im) (Icc m M) := by
      refine (Complex.continuous_im.comp ((cis_continuous.comp continuous_neg).mul ?_)).continuousOn
      exact (continuous_const.sub (arc_continuous_right _)).sub (arc_continuous_left _)
    have hbot : 0 ≤ (cis (-m) * N m).im := by
      have := key m ⟨le_rfl, hmM⟩ (-I * cis (-m)) (fun s hs => by
        rw [mul_assoc, show (-I * (cis (-m) * cis s)).re = (cis (-m) * cis s).im by simp, cis_mul_im]
        exact Real.sin_nonneg_of_nonneg_of_le_pi (by linarith [hs.1]) (by linarith [hs.2]))
      rw [mul_assoc] at this
      simpa using this
    have htop : (cis (-M) * N M).im ≤ 0 := by
      have := key M ⟨hmM, le_rfl⟩ (I * cis (-M)) (fun s hs => by
        rw [mul_assoc, show (I * (cis (-M) * cis s)).re = -(cis (-M) * cis s).im by simp, cis_mul_im, ← Real.sin_neg]
        exact Real.sin_nonneg_of_nonneg_of_le_pi (by linarith [hs.2]) (by linarith [hs.1]))
      rw [mul_assoc] at this
      have e : (I * (cis (-M) * N M)).re = -(cis (-M) * N M).im := by simp
      rw [e] at this
      linarith
    have := intermediate_value_Icc' hmM hc (⟨htop, hbot⟩ : (0 : ℝ) ∈ Icc _ _)
    obtain ⟨φ, hφ, e⟩ := this
    exact ⟨φ, hφ, e⟩
  set y := (cis (-φ) * N φ).re with hy
  have hy0 : 0 ≤ y := key φ hφ (cis (-φ)) fun s hs => by
    rw [cis_mul_re]
    exact Real.cos_nonneg_of_mem_Icc ⟨by linarith [hs.1, hφ.2], by linarith [hs.2, hφ.1]⟩
  have hNy : N φ = y * cis φ := by
    have : cis (-φ) * N φ = y := by rw [Complex.ext_iff]; exact ⟨by rw [hy]; simp, by rw [hφ0]; simp⟩
    rw [← this, mul_comm, ← mul_assoc, cis_neg, one_mul]
  refine ⟨dir (θ 0) φ, dir φ (θ T), |φ - θ 0|, y, |θ T - φ|, dir_unit _ _, dir_unit _ _, abs_nonneg _, hy0, abs_nonneg _, ?_, ?_⟩
  · -- lengths
    obtain ⟨c, hc, hcφ⟩ := htime φ hφ
    have hg : Continuous fun s : ℝ => 1 - (cis (-φ) * cis s).re := continuous_const.sub (Complex.continuous_re.comp (continuous_const.mul cis_continuous))
    have := pass l hc hr hg (fun s _ => by rw [cis_mul_re]; linarith [Real.cos_le_one (s - φ)]) (dir_unit (θ 0) (θ c)) (dir_unit (θ c) (θ T))
    rw [hcφ] at this
    have hi : ∀ (u : ℝ → ℝ), Continuous u → ∀ a b : ℝ, (∫ t in a..b, (1 - (cis (-φ) * cis (u t)).re)) = (b - a) - (cis (-φ) * ∫ t in a..b, cis (u t)).re := by
      intro u hu a b
      have hcu : Continuous fun t => cis (u t) := cis_continuous.comp hu
      have hre : Continuous fun t => (cis (-φ) * cis (u t)).re := Complex.continuous_re.comp (continuous_const.mul hcu)
      rw [intervalIntegral.integral_sub (continuous_const.intervalIntegrable _ _) (hre.intervalIntegrable _ _), re_integral _ hcu]
      simp
    rw [hi (fun s => s) continuous_id, hi (fun s => s) continuous_id, hi θ hcont] at this
    have e1 : ∀ (r : ℝ) (z : ℂ), (cis (-φ) * ((r : ℂ) * z)).re = r * (cis (-φ) * z).re := by
      intro r z; rw [show cis (-φ) * ((r : ℂ) * z) = (r : ℂ) * (cis (-φ) * z) by ring, Complex.re_ofReal_mul]
    have hyv : y = (cis (-φ) * ∫ t in (0 : ℝ)..T, cis (θ t)).re - dir (θ 0) φ * (cis (-φ) * ∫ s in (θ 0)..φ, cis s).re -
        dir φ (θ T) * (cis (-φ) * ∫ s in φ..(θ T), cis s).re := by
      rw [hy]
      simp only [hN, arc, mul_sub, Complex.sub_re]
      rw [e1, e1]
    rw [hyv, ← dir_abs (θ 0) φ, ← dir_abs φ (θ T)]
    linarith
  · -- ends
    unfold move
    simp only [disp_line, zero_mul, cis_zero, mul_one]
    have ha : cis (θ 0) * cis (dir (θ 0) φ * |φ - θ 0|) = cis φ := by
      rw [← cis_add, ← dir_abs, ← mul_assoc]
      have : dir (θ 0) φ * dir (θ 0) φ = 1 := by rcases dir_unit (θ 0) φ with h | h <;> rw [h] <;> norm_num
      rw [this, one_mul, add_sub_cancel]
    have hb : cis φ * cis (dir φ (θ T) * |θ T - φ|) = cis (θ T) := by
      rw [← cis_add, ← dir_abs, ← mul_assoc]
      have : dir φ (θ T) * dir φ (θ T) = 1 := by rcases dir_unit φ (θ T) with h | h <;> rw [h] <;> norm_num
      rw [this, one_mul, add_sub_cancel]
    refine Prod.ext ?_ ?_
    · simp only
      rw [p0, ha, ← arc_eq, ← arc_eq, P]
      have : N φ = _ := hNy
      simp only [hN] at this
      linear_combination (-1 : ℂ) * this
    · simp only
      rw [p0, ha, hb, q0]

end Verif.Car
