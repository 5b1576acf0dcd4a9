import Verif.Car.Words
set_option linter.unusedSectionVars false

/-!
# Words of Reeds and Shepp: the formulas (C88)

Normalised problem: radius 1, from the origin with the heading 0 to the point `z` with the heading `h = exp (i phi)`. Vectors of dimension 2 are complex numbers. Exact arithmetic;
`ZERO` is a parameter.
-/
namespace Verif.Car.RS
open Complex

/-- Rounding toward zero. -/
noncomputable def trunc (x : ℝ) : ℤ := if 0 ≤ x then ⌊x⌋ else ⌈x⌉

/-- `fmod (x, 2 π)` -/
noncomputable def fmod2pi (x : ℝ) : ℝ := x - 2 * Real.pi * (trunc (x / (2 * Real.pi)) : ℝ)

/-- `mod2pi`: reeds-shepp-path.cc:103-110. -/
noncomputable def mod2pi (x : ℝ) : ℝ :=
  let v := fmod2pi x
  if v < -Real.pi then v + 2 * Real.pi else if Real.pi < v then v - 2 * Real.pi else v

/-- `polar`: reeds-shepp-path.cc:117-121. -/
noncomputable def polarR (x y : ℝ) : ℝ := Real.sqrt (x * x + y * y)

/-- `tauOmega`: reeds-shepp-path.cc:122-130. -/
noncomputable def tauOmega (u v xi eta phi : ℝ) : ℝ × ℝ :=
  let delta := mod2pi (u - v)
  let A := Real.sin u - Real.sin delta
  let B := Real.cos u - Real.cos delta - 1
  let t1 := atan2 (eta * A - xi * B) (xi * A + eta * B)
  let t2 := 2 * (Real.cos delta - Real.cos v - Real.cos u) + 3
  let tau := if t2 < 0 then mod2pi (t1 + Real.pi) else mod2pi t1
  (tau, mod2pi (tau - u + v - phi))

/-- `LpSpLp`, formula 8.1: reeds-shepp-path.cc:132-147; `none` is `false`. -/
noncomputable def LpSpLp (zero : ℝ) (z h : ℂ) (phi : ℝ) : Option Lens :=
  let u := polarR (z.re - h.im) (z.im - 1 + h.re)
  let t := atan2 (z.im - 1 + h.re) (z.re - h.im)
  if -zero ≤ t then
    let v := mod2pi (phi - t)
    if -zero ≤ v then some ⟨t, u, v⟩ else none
  else none

/-- `LpSpRp`, formula 8.2: reeds-shepp-path.cc:148-167. -/
noncomputable def LpSpRp (zero : ℝ) (z h : ℂ) (phi : ℝ) : Option Lens :=
  let u0 := polarR (z.re + h.im) (z.im - 1 - h.re)
  let t1 := atan2 (z.im - 1 - h.re) (z.re + h.im)
  let u1 := u0 * u0
  if 4 ≤ u1 then
    let u := Real.sqrt (u1 - 4)
    let theta := atan2 2 u
    let t := mod2pi (t1 + theta)
    let v := mod2pi (t - phi)
    if -zero ≤ t ∧ -zero ≤ v then some ⟨t, u, v⟩ else none
  else none

/-- `LpRmL`, formulas 8.3 and 8.4: reeds-shepp-path.cc:232-248. -/
noncomputable def LpRmL (zero : ℝ) (z h : ℂ) (phi : ℝ) : Option Lens :=
  let xi := z.re - h.im
  let eta := z.im - 1 + h.re
  let u1 := polarR xi eta
  let theta := atan2 eta xi
  if u1 ≤ 4 then
    let u := -2 * Real.arcsin (1 / 4 * u1)
    let t := mod2pi (theta + 1 / 2 * u + Real.pi)
    let v := mod2pi (phi - t + u)
    if -zero ≤ t ∧ u ≤ zero then some ⟨t, u, v⟩ else none
  else none

/-- `LpRupLumRm`, formula 8.7: reeds-shepp-path.cc:305-322. -/
noncomputable def LpRupLumRm (zero : ℝ) (z h : ℂ) (phi : ℝ) : Option Lens :=
  let xi := z.re + h.im
  let eta := z.im - 1 - h.re
  let rho := 1 / 4 * (2 + Real.sqrt (xi * xi + eta * eta))
  if rho ≤ 1 then
    let u := Real.arccos rho
    let r := tauOmega u (-u) xi eta phi
    if -zero ≤ r.1 ∧ r.2 ≤ zero then some ⟨r.1, u, r.2⟩ else none
  else none

/-- `LpRumLumRp`, formula 8.8: reeds-shepp-path.cc:323-341. -/
noncomputable def LpRumLumRp (zero : ℝ) (z h : ℂ) (phi : ℝ) : Option Lens :=
  let xi := z.re + h.im
  let eta := z.im - 1 - h.re
  let rho := (20 - xi * xi - eta * eta) / 16
  if 0 ≤ rho ∧ rho ≤ 1 then
    let u := -Real.arccos rho
    if -(1 / 2) * Real.pi ≤ u then
      let r := tauOmega u u xi eta phi
      if -zero ≤ r.1 ∧ -zero ≤ r.2 then some ⟨r.1, u, r.2⟩ else none
    else none
  else none

/-- `LpRmSmLm`, formula 8.9: reeds-shepp-path.cc:395-414. -/
noncomputable def LpRmSmLm (zero : ℝ) (z h : ℂ) (phi : ℝ) : Option Lens :=
  let xi := z.re - h.im
  let eta := z.im - 1 + h.re
  let rho := polarR xi eta
  let theta := atan2 eta xi
  if 2 ≤ rho then
    let r := Real.sqrt (rho * rho - 4)
    let u := 2 - r
    let t := mod2pi (theta + atan2 r (-2))
    let v := mod2pi (phi - 1 / 2 * Real.pi - t)
    if -zero ≤ t ∧ u ≤ zero ∧ v ≤ zero then some ⟨t, u, v⟩ else none
  else none

/-- `LpRmSmRm`, formula 8.10: reeds-shepp-path.cc:415-431. -/
noncomputable def LpRmSmRm (zero : ℝ) (z h : ℂ) (phi : ℝ) : Option Lens :=
  let xi := z.re + h.im
  let eta := z.im - 1 - h.re
  let rho := polarR (-eta) xi
  let theta := atan2 xi (-eta)
  if 2 ≤ rho then
    let t := theta
    let u := 2 - rho
    let v := mod2pi (t + 1 / 2 * Real.pi - phi)
    if -zero ≤ t ∧ u ≤ zero ∧ v ≤ zero then some ⟨t, u, v⟩ else none
  else none

/-- `LpRmSLmRp`, formula 8.11: reeds-shepp-path.cc:544-564. -/
noncomputable def LpRmSLmRp (zero : ℝ) (z h : ℂ) (phi : ℝ) : Option Lens :=
  let xi := z.re + h.im
  let eta := z.im - 1 - h.re
  let rho := polarR xi eta
  if 2 ≤ rho then
    let u := 4 - Real.sqrt (rho * rho - 4)
    if u ≤ zero then
      let t := mod2pi (atan2 ((4 - u) * xi - 2 * eta) (-2 * xi + (u - 4) * eta))
      let v := mod2pi (t - phi)
      if -zero ≤ t ∧ -zero ≤ v then some ⟨t, u, v⟩ else none
    else none
  else none

/-! ## Specification: driving along a list of segments -/

/-- Driving along segments of given curvatures and lengths (negative backward). -/
noncomputable def run : List (ℝ × ℝ) → Pose → Pose
  | [], p => p
  | (k, t) :: w, p => run w (move k t p)

/-- The initial pose of the normalised problem. -/
def start : Pose := (0, 1)

/-! ## Angles -/

theorem trunc_spec (x : ℝ) : |x - trunc x| < 1 := by
  unfold trunc
  split
  · rw [abs_lt]; constructor <;> linarith [Int.floor_le x, Int.lt_floor_add_one x]
  · rw [abs_lt]; constructor <;> linarith [Int.le_ceil x, Int.ceil_lt_add_one x]

theorem cis_int (x : ℝ) (n : ℤ) : cis (x + n * (2 * Real.pi)) = cis x := by
  unfold cis; rw [Real.cos_add_int_mul_two_pi, Real.sin_add_int_mul_two_pi]

theorem cis_fmod (x : ℝ) : cis (fmod2pi x) = cis x := by
  unfold fmod2pi
  rw [show x - 2 * Real.pi * (trunc (x / (2 * Real.pi)) : ℝ) = x + ((-trunc (x / (2 * Real.pi)) : ℤ) : ℝ) * (2 * Real.pi) by push_cast; ring, cis_int]

theorem cis_mod2pi (x : ℝ) : cis (mod2pi x) = cis x := by
  have h1 := cis_int (fmod2pi x) 1
  have h2 := cis_int (fmod2pi x) (-1)
  unfold mod2pi
  simp only
  split
  · rw [← cis_fmod x, ← h1]; congr 1; push_cast; ring
  · split
    · rw [← cis_fmod x, ← h2]; congr 1; push_cast; ring
    · exact cis_fmod x

theorem mod2pi_abs (x : ℝ) : |mod2pi x| ≤ Real.pi := by
  have hpi := Real.pi_pos
  have h := trunc_spec (x / (2 * Real.pi))
  have h' : |fmod2pi x| < 2 * Real.pi := by
    have e : fmod2pi x = 2 * Real.pi * (x / (2 * Real.pi) - trunc (x / (2 * Real.pi))) := by
      unfold fmod2pi; field_simp
    rw [e, abs_mul, abs_of_pos two_pi_pos]
    nlinarith [two_pi_pos]
  rw [abs_lt] at h'
  unfold mod2pi
  simp only
  rw [abs_le]
  split
  · constructor <;> linarith
  · split
    · constructor <;> linarith
    · constructor <;> linarith

theorem pose_mul (r : ℝ) {z : ℂ} (hr : 0 ≤ r) (h : ‖z‖ ^ 2 = r ^ 2) : z = r * cis (arg z) := by
  have : ‖z‖ = r := (sq_eq_sq₀ (norm_nonneg _) hr).1 h
  have e := eq_norm_cis z
  rw [this] at e
  exact e

theorem polar_spec (x y : ℝ) : (⟨x, y⟩ : ℂ) = polarR x y * cis (atan2 y x) := by
  have e := eq_norm_cis (⟨x, y⟩ : ℂ)
  have : ‖(⟨x, y⟩ : ℂ)‖ = polarR x y := by
    unfold polarR; rw [Complex.norm_def, Complex.normSq_mk]
  rw [this] at e
  exact e

theorem polarR_nonneg (x y : ℝ) : 0 ≤ polarR x y := Real.sqrt_nonneg _

/-- Division of complex numbers of the same norm. -/
theorem arg_div {z w : ℂ} (h : ‖z‖ = ‖w‖) : z = cis (arg (z * (starRingEnd ℂ) w)) * w := by
  by_cases hw : w = 0
  · rw [hw, norm_zero, norm_eq_zero] at h
    rw [h, hw, mul_zero]
  · have hn : ‖w‖ ≠ 0 := norm_ne_zero_iff.2 hw
    have e := eq_norm_cis (z * (starRingEnd ℂ) w)
    rw [norm_mul, Complex.norm_conj, h] at e
    have hc : (starRingEnd ℂ) w ≠ 0 := (map_ne_zero _).2 hw
    have hww : w * (starRingEnd ℂ) w = ((‖w‖ * ‖w‖ : ℝ) : ℂ) := by
      rw [Complex.mul_conj, Complex.normSq_eq_norm_sq, sq]
    refine mul_right_cancel₀ hc ?_
    rw [mul_assoc, hww, mul_comm (cis _)]
    exact e

theorem cis_conj (x : ℝ) : (starRingEnd ℂ) (cis x) = cis (-x) := by
  unfold cis
  rw [Complex.ext_iff]
  simp

theorem cis_half_pi (x : ℝ) : cis (x + 1 / 2 * Real.pi) = I * cis x := by
  unfold cis
  rw [show x + 1 / 2 * Real.pi = x + Real.pi / 2 by ring, Real.cos_add_pi_div_two, Real.sin_add_pi_div_two, Complex.ext_iff]
  simp

theorem cis_pi (x : ℝ) : cis (x + Real.pi) = -cis x := by
  unfold cis
  rw [Real.cos_add_pi, Real.sin_add_pi, Complex.ext_iff]
  simp

theorem dispL (t : ℝ) : disp 1 t = -I * (cis t - 1) := by
  rw [disp_unit one_unit]; simp

theorem dispR (t : ℝ) : disp (-1) t = I * (cis (-t) - 1) := by
  rw [disp_unit neg_unit]; simp

/-! ## The formulas lead to the target -/

/-- `x - sin phi + i (y - 1 + cos phi)` -/
theorem zeta_minus (z h : ℂ) : (⟨z.re - h.im, z.im - 1 + h.re⟩ : ℂ) = z - I + I * h := by
  rw [Complex.ext_iff]; simp [sub_eq_add_neg]

/-- `x + sin phi + i (y - 1 - cos phi)` -/
theorem zeta_plus (z h : ℂ) : (⟨z.re + h.im, z.im - 1 - h.re⟩ : ℂ) = z - I - I * h := by
  rw [Complex.ext_iff]; simp

theorem sqrt_norm (x y : ℝ) : Real.sqrt (x * x + y * y) = ‖(⟨x, y⟩ : ℂ)‖ := by
  rw [Complex.norm_def, Complex.normSq_mk]

theorem polarR_norm (x y : ℝ) : polarR x y = ‖(⟨x, y⟩ : ℂ)‖ := sqrt_norm x y

section
variable {zero : ℝ} {z h : ℂ} {phi : ℝ} {l : Lens}

theorem LpSpLp_reaches (hh : cis phi = h) (hl : LpSpLp zero z h phi = some l) : run [(1, l.t), (0, l.p), (1, l.q)] start = (z, h) := by
  unfold LpSpLp at hl
  simp only at hl
  have e := polar_spec (z.re - h.im) (z.im - 1 + h.re)
  rw [zeta_minus] at e
  generalize polarR (z.re - h.im) (z.im - 1 + h.re) = u at *
  generalize atan2 (z.im - 1 + h.re) (z.re - h.im) = t at *
  by_cases c1 : -zero ≤ t
  · rw [if_pos c1] at hl
    by_cases c2 : -zero ≤ mod2pi (phi - t)
    · rw [if_pos c2] at hl
      cases hl
      have hv : cis t * cis (mod2pi (phi - t)) = h := by
        rw [cis_mod2pi, ← cis_add, add_sub_cancel, hh]
      generalize mod2pi (phi - t) = v at *
      simp only [run, move, start, dispL, disp_line, zero_mul, one_mul, cis_zero, mul_one, zero_add]
      refine Prod.ext ?_ hv
      simp only
      linear_combination -e - I * hv
    · rw [if_neg c2] at hl; cases hl
  · rw [if_neg c1] at hl; cases hl

theorem LpSpRp_reaches (hh : cis phi = h) (hl : LpSpRp zero z h phi = some l) : run [(1, l.t), (0, l.p), (-1, l.q)] start = (z, h) := by
  unfold LpSpRp at hl
  simp only at hl
  have e := polar_spec (z.re + h.im) (z.im - 1 - h.re)
  rw [zeta_plus] at e
  have hr := polarR_nonneg (z.re + h.im) (z.im - 1 - h.re)
  generalize polarR (z.re + h.im) (z.im - 1 - h.re) = r at *
  generalize atan2 (z.im - 1 - h.re) (z.re + h.im) = t1 at *
  by_cases c1 : 4 ≤ r * r
  · rw [if_pos c1] at hl
    split at hl
    · cases hl
      simp only
      have hu : Real.sqrt (r * r - 4) ^ 2 = r * r - 4 := Real.sq_sqrt (by linarith)
      generalize Real.sqrt (r * r - 4) = u at *
      have e2 : (⟨u, 2⟩ : ℂ) = r * cis (atan2 2 u) := by
        unfold atan2
        refine pose_mul r hr ?_
        rw [Complex.sq_norm, Complex.normSq_mk]; linarith
      have e3 : (⟨u, -2⟩ : ℂ) = r * cis (-atan2 2 u) := by
        have := congrArg (starRingEnd ℂ) e2
        rw [map_mul, cis_conj, Complex.conj_ofReal] at this
        rw [← this, Complex.ext_iff]; simp
      have e4 : (⟨u, -2⟩ : ℂ) = u - 2 * I := by rw [Complex.ext_iff]; simp
      have ht : cis (mod2pi (t1 + atan2 2 u)) * cis (-atan2 2 u) = cis t1 := by
        rw [cis_mod2pi, ← cis_add]; congr 1; ring
      have hv : cis (mod2pi (t1 + atan2 2 u)) * cis (-mod2pi (mod2pi (t1 + atan2 2 u) - phi)) = h := by
        rw [cis_neg_congr (cis_mod2pi (mod2pi (t1 + atan2 2 u) - phi)), ← cis_add, ← hh]; congr 1; ring
      rw [e4] at e3
      generalize mod2pi (t1 + atan2 2 u) = t at *
      generalize mod2pi (t - phi) = v at *
      simp only [run, move, start, dispL, dispR, disp_line, zero_mul, one_mul, neg_mul, cis_zero, mul_one, zero_add]
      refine Prod.ext ?_ hv
      simp only
      linear_combination -e + I * hv + r * ht + cis t * e3
    · cases hl
  · rw [if_neg c1] at hl; cases hl

theorem LpRmL_reaches (hh : cis phi = h) (hl : LpRmL zero z h phi = some l) : run [(1, l.t), (-1, l.p), (1, l.q)] start = (z, h) := by
  unfold LpRmL at hl
  simp only at hl
  have e := polar_spec (z.re - h.im) (z.im - 1 + h.re)
  rw [zeta_minus] at e
  have hr := polarR_nonneg (z.re - h.im) (z.im - 1 + h.re)
  generalize polarR (z.re - h.im) (z.im - 1 + h.re) = r at *
  generalize atan2 (z.im - 1 + h.re) (z.re - h.im) = theta at *
  by_cases c1 : r ≤ 4
  · rw [if_pos c1] at hl
    split at hl
    · cases hl
      simp only
      have hs : Real.sin (-2 * Real.arcsin (1 / 4 * r) / 2) = -(1 / 4 * r) := by
        rw [show -2 * Real.arcsin (1 / 4 * r) / 2 = -Real.arcsin (1 / 4 * r) by ring, Real.sin_neg, Real.sin_arcsin (by linarith) (by linarith)]
      generalize -2 * Real.arcsin (1 / 4 * r) = u at *
      have ht : cis (mod2pi (theta + 1 / 2 * u + Real.pi) - u / 2) = -cis theta := by
        rw [sub_eq_add_neg, cis_add, cis_mod2pi, ← cis_add, ← cis_pi]; congr 1; ring
      have hv : cis (mod2pi (theta + 1 / 2 * u + Real.pi)) * cis (-u) * cis (mod2pi (phi - mod2pi (theta + 1 / 2 * u + Real.pi) + u)) = h := by
        rw [cis_mod2pi (phi - mod2pi (theta + 1 / 2 * u + Real.pi) + u), ← cis_add, ← cis_add, ← hh]; congr 1; ring
      generalize mod2pi (theta + 1 / 2 * u + Real.pi) = t at *
      generalize mod2pi (phi - t + u) = v at *
      have hc := half_chord t u
      rw [hs, ht, sub_eq_add_neg t u, cis_add t (-u)] at hc
      push_cast at hc
      simp only [run, move, start, dispL, dispR, one_mul, neg_mul, zero_add]
      refine Prod.ext ?_ hv
      simp only
      linear_combination -e - I * hv - 2 * I * hc - (r : ℂ) * cis theta * I_sq
    · cases hl
  · rw [if_neg c1] at hl; cases hl

theorem tau_cis (u v xi eta phi : ℝ) (ht2 : 0 ≤ 2 * (Real.cos (mod2pi (u - v)) - Real.cos v - Real.cos u) + 3) :
    cis (tauOmega u v xi eta phi).1 = cis (arg ((⟨xi, eta⟩ : ℂ) * (starRingEnd ℂ) ⟨Real.sin u - Real.sin (u - v), Real.cos u - Real.cos (u - v) - 1⟩)) := by
  have hd := cis_mod2pi (u - v)
  have hc : Real.cos (mod2pi (u - v)) = Real.cos (u - v) := by have := (Complex.ext_iff.1 hd).1; simpa only [cis] using this
  have hs : Real.sin (mod2pi (u - v)) = Real.sin (u - v) := by have := (Complex.ext_iff.1 hd).2; simpa only [cis] using this
  unfold tauOmega
  simp only
  rw [if_neg (not_lt.2 ht2), cis_mod2pi, hc, hs]
  unfold atan2
  congr 2
  rw [Complex.ext_iff]
  simp
  constructor <;> ring

theorem omega_cis (u v xi eta phi : ℝ) : cis (tauOmega u v xi eta phi).2 = cis ((tauOmega u v xi eta phi).1 - u + v - phi) := by
  unfold tauOmega
  simp only
  rw [cis_mod2pi]

theorem LpRupLumRm_reaches (hh : cis phi = h) (hl : LpRupLumRm zero z h phi = some l) :
    run [(1, l.t), (-1, l.p), (1, -l.p), (-1, l.q)] start = (z, h) := by
  unfold LpRupLumRm at hl
  simp only at hl
  by_cases c1 : 1 / 4 * (2 + Real.sqrt ((z.re + h.im) * (z.re + h.im) + (z.im - 1 - h.re) * (z.im - 1 - h.re))) ≤ 1
  · rw [if_pos c1] at hl
    split at hl
    · cases hl
      simp only
      rw [sqrt_norm] at *
      have hn := norm_nonneg (⟨z.re + h.im, z.im - 1 - h.re⟩ : ℂ)
      have hz := zeta_plus z h
      generalize z.re + h.im = xi at *
      generalize z.im - 1 - h.re = eta at *
      have hcos : Real.cos (Real.arccos (1 / 4 * (2 + ‖(⟨xi, eta⟩ : ℂ)‖))) = 1 / 4 * (2 + ‖(⟨xi, eta⟩ : ℂ)‖) := Real.cos_arccos (by linarith) c1
      generalize Real.arccos (1 / 4 * (2 + ‖(⟨xi, eta⟩ : ℂ)‖)) = u at *
      have hm : cis (mod2pi (u - -u)) = cis (u - -u) := cis_mod2pi _
      have hc2 : Real.cos (mod2pi (u - -u)) = 2 * Real.cos u ^ 2 - 1 := by
        have : Real.cos (mod2pi (u - -u)) = Real.cos (u - -u) := by have := (Complex.ext_iff.1 hm).1; simpa only [cis, one_re] using this
        rw [this, ← Real.cos_two_mul]; congr 1; ring
      have ht := tau_cis u (-u) xi eta phi (by rw [hc2, Real.cos_neg]; nlinarith [sq_nonneg (2 * Real.cos u - 1)])
      have ho := omega_cis u (-u) xi eta phi
      generalize (tauOmega u (-u) xi eta phi).1 = t at *
      generalize (tauOmega u (-u) xi eta phi).2 = v at *
      have hw : (⟨Real.sin u - Real.sin (u - -u), Real.cos u - Real.cos (u - -u) - 1⟩ : ℂ) = -I * (1 - cis (-u) + cis (-u) * cis (-u)) := by
        rw [← cis_add, Complex.ext_iff]
        simp [cis, -ofReal_sin, -ofReal_cos]
        rw [show -u + -u = -(u + u) by ring, Real.sin_neg, Real.cos_neg]
        constructor <;> ring
      have hw2 : ‖-I * (1 - cis (-u) + cis (-u) * cis (-u))‖ = |2 * Real.cos u - 1| := by
        have e1 : (1 - cis (-u) + cis (-u) * cis (-u)) = ((2 * Real.cos u - 1 : ℝ) : ℂ) * cis (-u) := by
          have hsq := Real.sin_sq_add_cos_sq u
          rw [Complex.ext_iff]
          simp [cis, -ofReal_sin, -ofReal_cos]
          constructor <;> nlinarith
        rw [e1, norm_mul, norm_mul, norm_cis, norm_neg, norm_I, Complex.norm_real, Real.norm_eq_abs, one_mul, mul_one]
      have hn2 : ‖(⟨xi, eta⟩ : ℂ)‖ = ‖(2 : ℂ) * (-I * (1 - cis (-u) + cis (-u) * cis (-u)))‖ := by
        rw [norm_mul, hw2, abs_of_nonneg (by linarith)]
        have : ‖(2 : ℂ)‖ = 2 := by simp
        rw [this]; linarith
      have hk := arg_div hn2
      have ha : arg ((⟨xi, eta⟩ : ℂ) * (starRingEnd ℂ) ((2 : ℂ) * (-I * (1 - cis (-u) + cis (-u) * cis (-u)))))
          = arg ((⟨xi, eta⟩ : ℂ) * (starRingEnd ℂ) (-I * (1 - cis (-u) + cis (-u) * cis (-u)))) := by
        rw [map_mul, mul_left_comm, show (starRingEnd ℂ) (2 : ℂ) = ((2 : ℝ) : ℂ) by push_cast; exact map_ofNat _ 2, Complex.arg_real_mul _ two_pos]
      rw [ha, ← hw, ← ht, hw, hz] at hk
      have hv : cis t * cis (-u) * cis (-u) * cis (-v) = h := by
        rw [cis_neg_congr ho, ← cis_add, ← cis_add, ← cis_add, ← hh]; congr 1; ring
      simp only [run, move, start, dispL, dispR, one_mul, neg_mul, zero_add]
      refine Prod.ext ?_ hv
      simp only
      linear_combination -hk + I * hv
    · cases hl
  · rw [if_neg c1] at hl; cases hl

theorem LpRumLumRp_reaches (hh : cis phi = h) (hl : LpRumLumRp zero z h phi = some l) :
    run [(1, l.t), (-1, l.p), (1, l.p), (-1, l.q)] start = (z, h) := by
  unfold LpRumLumRp at hl
  simp only at hl
  split at hl
  · rename_i c1
    split at hl
    · split at hl
      · cases hl
        simp only
        have hz := zeta_plus z h
        have hsq : ‖(⟨z.re + h.im, z.im - 1 - h.re⟩ : ℂ)‖ ^ 2 = (z.re + h.im) * (z.re + h.im) + (z.im - 1 - h.re) * (z.im - 1 - h.re) := by
          rw [Complex.sq_norm, Complex.normSq_mk]
        generalize z.re + h.im = xi at *
        generalize z.im - 1 - h.re = eta at *
        have hcos : Real.cos (-Real.arccos ((20 - xi * xi - eta * eta) / 16)) = (20 - xi * xi - eta * eta) / 16 := by
          rw [Real.cos_neg]; exact Real.cos_arccos (by linarith [c1.1]) c1.2
        generalize -Real.arccos ((20 - xi * xi - eta * eta) / 16) = u at *
        have hm : cis (mod2pi (u - u)) = 1 := by rw [cis_mod2pi, sub_self, cis_zero]
        have hc2 : Real.cos (mod2pi (u - u)) = 1 := by have := (Complex.ext_iff.1 hm).1; simpa only [cis, one_re] using this
        have ht := tau_cis u u xi eta phi (by rw [hc2]; linarith [Real.cos_le_one u])
        have ho := omega_cis u u xi eta phi
        generalize (tauOmega u u xi eta phi).1 = t at *
        generalize (tauOmega u u xi eta phi).2 = v at *
        have hw : (⟨Real.sin u - Real.sin (u - u), Real.cos u - Real.cos (u - u) - 1⟩ : ℂ) = -I * (2 - cis (-u)) := by
          rw [sub_self, Complex.ext_iff]
          simp [cis, -ofReal_sin, -ofReal_cos]
          ring
        have hn2 : ‖(⟨xi, eta⟩ : ℂ)‖ = ‖(2 : ℂ) * (-I * (2 - cis (-u)))‖ := by
          refine (sq_eq_sq₀ (norm_nonneg _) (norm_nonneg _)).1 ?_
          rw [hsq, norm_mul, norm_mul, norm_neg, norm_I, one_mul, mul_pow, Complex.sq_norm (2 - cis (-u)), Complex.normSq_apply]
          have := Real.sin_sq_add_cos_sq u
          simp [cis, -ofReal_sin, -ofReal_cos]
          nlinarith
        have hk := arg_div hn2
        have ha : arg ((⟨xi, eta⟩ : ℂ) * (starRingEnd ℂ) ((2 : ℂ) * (-I * (2 - cis (-u)))))
            = arg ((⟨xi, eta⟩ : ℂ) * (starRingEnd ℂ) (-I * (2 - cis (-u)))) := by
          rw [map_mul, mul_left_comm, show (starRingEnd ℂ) (2 : ℂ) = ((2 : ℝ) : ℂ) by push_cast; exact map_ofNat _ 2, Complex.arg_real_mul _ two_pos]
        rw [ha, ← hw, ← ht, hw, hz] at hk
        have hv : cis t * cis (-u) * cis u * cis (-v) = h := by
          rw [cis_neg_congr ho, ← cis_add, ← cis_add, ← cis_add, ← hh]; congr 1; ring
        have hu : cis (-u) * cis u = 1 := by rw [← cis_add, neg_add_cancel, cis_zero]
        simp only [run, move, start, dispL, dispR, one_mul, neg_mul, zero_add]
        refine Prod.ext ?_ hv
        simp only
        linear_combination -hk + I * hv - 2 * I * cis t * hu
      · cases hl
    · cases hl
  · cases hl

theorem cis_half : cis (- -(1 / 2 * Real.pi)) = I := by
  have := cis_half_pi 0
  rw [cis_zero, mul_one, zero_add] at this
  rw [neg_neg, this]

theorem LpRmSmLm_reaches (hh : cis phi = h) (hl : LpRmSmLm zero z h phi = some l) :
    run [(1, l.t), (-1, -(1 / 2 * Real.pi)), (0, l.p), (1, l.q)] start = (z, h) := by
  unfold LpRmSmLm at hl
  simp only at hl
  have e := polar_spec (z.re - h.im) (z.im - 1 + h.re)
  rw [zeta_minus] at e
  have hr := polarR_nonneg (z.re - h.im) (z.im - 1 + h.re)
  generalize polarR (z.re - h.im) (z.im - 1 + h.re) = r at *
  generalize atan2 (z.im - 1 + h.re) (z.re - h.im) = theta at *
  split at hl
  · rename_i c1
    split at hl
    · cases hl
      simp only
      have hu : Real.sqrt (r * r - 4) ^ 2 = r * r - 4 := Real.sq_sqrt (by nlinarith)
      generalize Real.sqrt (r * r - 4) = s at *
      have e2 : (⟨-2, s⟩ : ℂ) = r * cis (atan2 s (-2)) := by
        unfold atan2
        refine pose_mul r hr ?_
        rw [Complex.sq_norm, Complex.normSq_mk]; linarith
      have e3 : (⟨-2, -s⟩ : ℂ) = r * cis (-atan2 s (-2)) := by
        have := congrArg (starRingEnd ℂ) e2
        rw [map_mul, cis_conj, Complex.conj_ofReal] at this
        rw [← this, Complex.ext_iff]; simp
      have e4 : (⟨-2, -s⟩ : ℂ) = -2 - s * I := by rw [Complex.ext_iff]; simp
      rw [e4] at e3
      have ht : cis (mod2pi (theta + atan2 s (-2))) * cis (-atan2 s (-2)) = cis theta := by
        rw [cis_mod2pi, ← cis_add]; congr 1; ring
      have hv : cis (mod2pi (theta + atan2 s (-2))) * I * cis (mod2pi (phi - 1 / 2 * Real.pi - mod2pi (theta + atan2 s (-2)))) = h := by
        rw [cis_mod2pi (phi - 1 / 2 * Real.pi - mod2pi (theta + atan2 s (-2))), ← cis_half, ← cis_add, ← cis_add, ← hh]; congr 1; ring
      generalize mod2pi (theta + atan2 s (-2)) = t at *
      generalize mod2pi (phi - 1 / 2 * Real.pi - t) = v at *
      simp only [run, move, start, dispL, dispR, disp_line, one_mul, zero_mul, neg_mul, zero_add, cis_zero, mul_one, cis_half]
      refine Prod.ext ?_ hv
      simp only
      push_cast
      linear_combination -e - I * hv + r * ht + cis t * e3 + 2 * (cis t) * I_sq
    · cases hl
  · cases hl

theorem LpRmSmRm_reaches (hh : cis phi = h) (hl : LpRmSmRm zero z h phi = some l) :
    run [(1, l.t), (-1, -(1 / 2 * Real.pi)), (0, l.p), (-1, l.q)] start = (z, h) := by
  unfold LpRmSmRm at hl
  simp only at hl
  have e := polar_spec (-(z.im - 1 - h.re)) (z.re + h.im)
  have hz := zeta_plus z h
  have e1 : (⟨-(z.im - 1 - h.re), z.re + h.im⟩ : ℂ) = I * ⟨z.re + h.im, z.im - 1 - h.re⟩ := by
    rw [Complex.ext_iff]; simp
  rw [e1, hz] at e
  generalize polarR (-(z.im - 1 - h.re)) (z.re + h.im) = r at *
  generalize atan2 (z.re + h.im) (-(z.im - 1 - h.re)) = t at *
  split at hl
  · rename_i c1
    split at hl
    · cases hl
      simp only
      have hv : cis t * I * cis (-mod2pi (t + 1 / 2 * Real.pi - phi)) = h := by
        rw [cis_neg_congr (cis_mod2pi (t + 1 / 2 * Real.pi - phi)), ← cis_half, ← cis_add, ← cis_add, ← hh]; congr 1; ring
      generalize mod2pi (t + 1 / 2 * Real.pi - phi) = v at *
      simp only [run, move, start, dispL, dispR, disp_line, one_mul, zero_mul, neg_mul, zero_add, cis_zero, mul_one, cis_half]
      refine Prod.ext ?_ hv
      simp only
      push_cast
      linear_combination I * e + I * hv - (z - I - I * h) * I_sq
    · cases hl
  · cases hl

theorem LpRmSLmRp_reaches (hh : cis phi = h) (hl : LpRmSLmRp zero z h phi = some l) :
    run [(1, l.t), (-1, -(1 / 2 * Real.pi)), (0, l.p), (1, -(1 / 2 * Real.pi)), (-1, l.q)] start = (z, h) := by
  unfold LpRmSLmRp at hl
  simp only at hl
  have hz := zeta_plus z h
  have hr := polarR_nonneg (z.re + h.im) (z.im - 1 - h.re)
  have hrn := polarR_norm (z.re + h.im) (z.im - 1 - h.re)
  generalize polarR (z.re + h.im) (z.im - 1 - h.re) = r at *
  generalize z.re + h.im = xi at *
  generalize z.im - 1 - h.re = eta at *
  split at hl
  · rename_i c1
    split at hl
    · split at hl
      · cases hl
        simp only
        have hu : Real.sqrt (r * r - 4) ^ 2 = r * r - 4 := Real.sq_sqrt (by nlinarith)
        generalize Real.sqrt (r * r - 4) = s at *
        have hw : ‖(⟨-2, -s⟩ : ℂ)‖ = r := by
          refine (sq_eq_sq₀ (norm_nonneg _) hr).1 ?_
          rw [Complex.sq_norm, Complex.normSq_mk]; linarith
        have hk := arg_div (z := ⟨xi, eta⟩) (w := ⟨-2, -s⟩) (by rw [hw, hrn])
        have ha : (⟨xi, eta⟩ : ℂ) * (starRingEnd ℂ) ⟨-2, -s⟩ = ⟨-2 * xi + (4 - s - 4) * eta, (4 - (4 - s)) * xi - 2 * eta⟩ := by
          rw [Complex.ext_iff]; simp; constructor <;> ring
        have e4 : (⟨-2, -s⟩ : ℂ) = -2 - s * I := by rw [Complex.ext_iff]; simp
        have ht : cis (mod2pi (atan2 ((4 - (4 - s)) * xi - 2 * eta) (-2 * xi + (4 - s - 4) * eta))) = cis (arg ((⟨xi, eta⟩ : ℂ) * (starRingEnd ℂ) ⟨-2, -s⟩)) := by
          rw [cis_mod2pi, ha]; rfl
        rw [← ht, e4, hz] at hk
        generalize mod2pi (atan2 ((4 - (4 - s)) * xi - 2 * eta) (-2 * xi + (4 - s - 4) * eta)) = t at *
        have hi : cis (-(1 / 2 * Real.pi)) = -I := by
          rw [← cis_conj, ← neg_neg (1 / 2 * Real.pi), cis_half]; simp
        have hv : cis t * I * (-I) * cis (-mod2pi (t - phi)) = h := by
          rw [cis_neg_congr (cis_mod2pi (t - phi)), mul_assoc (cis t)]
          rw [show I * -I = 1 by simp, mul_one, ← cis_add, ← hh]; congr 1; ring
        generalize mod2pi (t - phi) = v at *
        simp only [run, move, start, dispL, dispR, disp_line, one_mul, zero_mul, neg_mul, zero_add, cis_zero, mul_one, cis_half, hi]
        refine Prod.ext ?_ ?_
        · simp only
          push_cast
          linear_combination -hk + I * hv + (2 * I * cis t + 2 * cis t) * I_sq
        · simp only
          linear_combination hv
      · cases hl
    · cases hl
  · cases hl

end

end Verif.Car.RS
