import Verif.Car.Arc
set_option linter.unusedSectionVars false

/-!
# Words of Dubins: the six ways of driving between two poses (C87)

Normalised problem: radius 1, from the origin with the heading `alpha` to the point `(d, 0)` with the heading `beta`. Exact arithmetic; `atan2 y x` is the argument of
`x + i y`, `M_PI` is π.
-/
namespace Verif.Car
open Complex

/-- `fmodr (x, 2 π)`: dubins.cc:35-37, dubins-path.cc:204-206. -/
noncomputable def mod2pi (x : ℝ) : ℝ := x - 2 * Real.pi * (⌊x / (2 * Real.pi)⌋ : ℝ)

/-- `atan2` -/
noncomputable def atan2 (y x : ℝ) : ℝ := arg ⟨x, y⟩

/-- Lengths of the three segments of a word. -/
structure Lens where
  t : ℝ
  p : ℝ
  q : ℝ

/-- `dubins_LSL`: dubins.cc:39-52. -/
noncomputable def dubinsLSL (alpha beta d : ℝ) : Option Lens :=
  let sa := Real.sin alpha
  let sb := Real.sin beta
  let ca := Real.cos alpha
  let cb := Real.cos beta
  let cab := Real.cos (alpha - beta)
  let tmp0 := d + sa - sb
  let psq := 2 + d * d - 2 * cab + 2 * d * (sa - sb)
  if psq < 0 then none
  else
    let tmp1 := atan2 (cb - ca) tmp0
    some ⟨mod2pi (-alpha + tmp1), Real.sqrt psq, mod2pi (beta - tmp1)⟩

/-- `dubins_RSR`: dubins.cc:54-67. -/
noncomputable def dubinsRSR (alpha beta d : ℝ) : Option Lens :=
  let sa := Real.sin alpha
  let sb := Real.sin beta
  let ca := Real.cos alpha
  let cb := Real.cos beta
  let cab := Real.cos (alpha - beta)
  let tmp0 := d - sa + sb
  let psq := 2 + d * d - 2 * cab + 2 * d * (sb - sa)
  if psq < 0 then none
  else
    let tmp1 := atan2 (ca - cb) tmp0
    some ⟨mod2pi (alpha - tmp1), Real.sqrt psq, mod2pi (-beta + tmp1)⟩

/-- `dubins_LSR`: dubins.cc:69-81. -/
noncomputable def dubinsLSR (alpha beta d : ℝ) : Option Lens :=
  let sa := Real.sin alpha
  let sb := Real.sin beta
  let ca := Real.cos alpha
  let cb := Real.cos beta
  let cab := Real.cos (alpha - beta)
  let psq := -2 + d * d + 2 * cab + 2 * d * (sa + sb)
  if psq < 0 then none
  else
    let p := Real.sqrt psq
    let tmp2 := atan2 (-ca - cb) (d + sa + sb) - atan2 (-2) p
    some ⟨mod2pi (-alpha + tmp2), p, mod2pi (-mod2pi beta + tmp2)⟩

/-- `dubins_RSL`: dubins.cc:83-95. -/
noncomputable def dubinsRSL (alpha beta d : ℝ) : Option Lens :=
  let sa := Real.sin alpha
  let sb := Real.sin beta
  let ca := Real.cos alpha
  let cb := Real.cos beta
  let cab := Real.cos (alpha - beta)
  let psq := d * d - 2 + 2 * cab - 2 * d * (sa + sb)
  if psq < 0 then none
  else
    let p := Real.sqrt psq
    let tmp2 := atan2 (ca + cb) (d - sa - sb) - atan2 2 p
    some ⟨mod2pi (alpha - tmp2), p, mod2pi (beta - tmp2)⟩

/-- `dubins_RLR`: dubins.cc:97-108. -/
noncomputable def dubinsRLR (alpha beta d : ℝ) : Option Lens :=
  let sa := Real.sin alpha
  let sb := Real.sin beta
  let ca := Real.cos alpha
  let cb := Real.cos beta
  let cab := Real.cos (alpha - beta)
  let tmp := (6 - d * d + 2 * cab + 2 * d * (sa - sb)) / 8
  if 1 < |tmp| then none
  else
    let p := mod2pi (2 * Real.pi - Real.arccos tmp)
    let t := mod2pi (alpha - atan2 (ca - cb) (d - sa + sb) + mod2pi (p / 2))
    some ⟨t, p, mod2pi (alpha - beta - t + mod2pi p)⟩

/-- `dubins_LRL`: dubins.cc:110-121. -/
noncomputable def dubinsLRL (alpha beta d : ℝ) : Option Lens :=
  let sa := Real.sin alpha
  let sb := Real.sin beta
  let ca := Real.cos alpha
  let cb := Real.cos beta
  let cab := Real.cos (alpha - beta)
  let tmp := (6 - d * d + 2 * cab + 2 * d * (-sa + sb)) / 8
  if 1 < |tmp| then none
  else
    let p := mod2pi (2 * Real.pi - Real.arccos tmp)
    let t := mod2pi (-alpha - atan2 (ca - cb) (d + sa - sb) + p / 2)
    some ⟨t, p, mod2pi (mod2pi beta - alpha - t + mod2pi p)⟩

/-- Types of segments: dubins.hh:31-33. -/
inductive Seg | L | S | R
  deriving DecidableEq

/-- Curvature of a segment at radius 1: dubins-path.cc:247-260. -/
def Seg.curv : Seg → ℝ
  | .L => 1
  | .S => 0
  | .R => -1

/-- `dubins_words`: dubins.cc:26-28. -/
noncomputable def dubinsWords : List (ℝ → ℝ → ℝ → Option Lens) := [dubinsLSL, dubinsLSR, dubinsRSL, dubinsRSR, dubinsRLR, dubinsLRL]

/-- `DIRDATA`: dubins.hh:42-44. -/
def dirData : List (Seg × Seg × Seg) := [(.L, .S, .L), (.L, .S, .R), (.R, .S, .L), (.R, .S, .R), (.R, .L, .R), (.L, .R, .L)]

/-- Length of a word. -/
def Lens.cost (l : Lens) : ℝ := l.t + l.p + l.q

/-- One iteration of the loop over the words: dubins-path.cc:178-191. -/
noncomputable def dubinsStep (alpha beta d : ℝ) (best : Option (Lens × (Seg × Seg × Seg))) (w : (ℝ → ℝ → ℝ → Option Lens) × (Seg × Seg × Seg)) :
    Option (Lens × (Seg × Seg × Seg)) :=
  match w.1 alpha beta d with
  | none => best
  | some l =>
    match best with
    | none => some (l, w.2)
    | some b => if l.cost < b.1.cost then some (l, w.2) else some b

/-- `dubins_init_normalised`: dubins-path.cc:171-201; `none` is the exception of line 198. -/
noncomputable def dubinsBest (alpha beta d : ℝ) : Option (Lens × (Seg × Seg × Seg)) := (dubinsWords.zip dirData).foldl (dubinsStep alpha beta d) none

/-! ## Specification -/

/-- Driving along three segments of radius 1 from the origin leads to the target. -/
def Reaches (T : Seg × Seg × Seg) (l : Lens) (alpha beta d : ℝ) : Prop :=
  move T.2.2.curv l.q (move T.2.1.curv l.p (move T.1.curv l.t (0, cis alpha))) = ((d : ℂ), cis beta)

/-! ## Angles -/

theorem two_pi_pos : 0 < 2 * Real.pi := by have := Real.pi_pos; linarith

theorem mod2pi_nonneg (x : ℝ) : 0 ≤ mod2pi x := by
  unfold mod2pi
  have := Int.floor_le (x / (2 * Real.pi))
  rw [le_div_iff₀ two_pi_pos] at this
  linarith

theorem mod2pi_lt (x : ℝ) : mod2pi x < 2 * Real.pi := by
  unfold mod2pi
  have := Int.lt_floor_add_one (x / (2 * Real.pi))
  rw [div_lt_iff₀ two_pi_pos] at this
  linarith

theorem cis_mod2pi (x : ℝ) : cis (mod2pi x) = cis x := by
  unfold mod2pi cis
  rw [mul_comm, Real.cos_sub_int_mul_two_pi, Real.sin_sub_int_mul_two_pi]

theorem mod2pi_of_mem {x : ℝ} (h0 : 0 ≤ x) (h1 : x < 2 * Real.pi) : mod2pi x = x := by
  unfold mod2pi
  have : ⌊x / (2 * Real.pi)⌋ = 0 := by
    rw [Int.floor_eq_zero_iff]
    exact ⟨div_nonneg h0 two_pi_pos.le, (div_lt_one two_pi_pos).2 h1⟩
  rw [this]; simp

theorem cis_inj {x y : ℝ} (h : cis x = cis y) : ∃ n : ℤ, x = y + n * (2 * Real.pi) := by
  have hc : Real.cos x = Real.cos y := by have := congrArg Complex.re h; simpa only [cis] using this
  have hs : Real.sin x = Real.sin y := by have := congrArg Complex.im h; simpa only [cis] using this
  have := (Real.Angle.cos_sin_inj (θ := x) (ψ := y)) hc hs
  rw [Real.Angle.angle_eq_iff_two_pi_dvd_sub] at this
  obtain ⟨k, hk⟩ := this
  exact ⟨k, by linarith⟩

/-- `mod2pi x` is the smallest nonnegative angle equal to `x`. -/
theorem mod2pi_le {x s : ℝ} (hs : 0 ≤ s) (h : cis s = cis x) : mod2pi x ≤ s := by
  rw [← cis_mod2pi x] at h
  obtain ⟨n, hn⟩ := cis_inj h
  have h1 := mod2pi_lt x
  by_contra hlt
  have hlt := not_le.1 hlt
  have hn0 : (n : ℝ) * (2 * Real.pi) < 0 := by linarith
  have : n < 0 := by
    by_contra h'
    have : (0 : ℝ) ≤ n := by exact_mod_cast not_lt.1 h'
    have := mul_nonneg this two_pi_pos.le
    linarith
  have : (n : ℝ) ≤ -1 := by exact_mod_cast Int.le_sub_one_of_lt this
  have := mul_le_mul_of_nonneg_right this two_pi_pos.le
  linarith

theorem eq_norm_cis (z : ℂ) : z = (‖z‖ : ℂ) * cis (arg z) := by
  rw [cis_eq_exp]; exact (Complex.norm_mul_exp_arg_mul_I z).symm

theorem norm_cis (x : ℝ) : ‖cis x‖ = 1 := by rw [cis_eq_exp]; exact Complex.norm_exp_ofReal_mul_I x

theorem arg_spec {z : ℂ} {r x : ℝ} (hr : 0 < r) (h : z = (r : ℂ) * cis x) : cis (arg z) = cis x := by
  have hn : ‖z‖ = r := by rw [h, norm_mul, norm_cis, mul_one, Complex.norm_real, Real.norm_of_nonneg hr.le]
  have e := eq_norm_cis z
  rw [hn] at e
  have hr' : (r : ℂ) ≠ 0 := by exact_mod_cast hr.ne'
  exact mul_left_cancel₀ hr' (e.symm.trans h)

theorem cis_sub (x y : ℝ) : cis (x - y) * cis y = cis x := by rw [← cis_add, sub_add_cancel]

theorem disp_unit {e : ℝ} (he : e = 1 ∨ e = -1) (t : ℝ) : disp e t = -e * I * (cis (e * t) - 1) := by
  unfold disp cis
  rcases he with rfl | rfl
  · rw [if_neg one_ne_zero, Complex.ext_iff]; simp
  · rw [if_neg (by norm_num), Complex.ext_iff]; simp [div_neg]

theorem disp_line (t : ℝ) : disp 0 t = t := by
  unfold disp; rw [if_pos rfl]; rfl

/-! ## Equations of the words -/

/-- Turn, line, turn. -/
theorem csc_iff {e f : ℝ} (he : e = 1 ∨ e = -1) (hf : f = 1 ∨ f = -1) (l : Lens) (alpha beta d : ℝ) :
    move f l.q (move 0 l.p (move e l.t (0, cis alpha))) = ((d : ℂ), cis beta) ↔
      cis (alpha + e * l.t + f * l.q) = cis beta ∧ ((l.p : ℂ) - (e - f) * I) * cis (alpha + e * l.t) = d - e * I * cis alpha + f * I * cis beta := by
  unfold move
  simp only [disp_unit he, disp_unit hf, disp_line, zero_mul, cis_zero, mul_one, Prod.mk.injEq, zero_add]
  rw [cis_add (alpha + e * l.t), cis_add alpha]
  constructor
  · rintro ⟨h1, h2⟩
    refine ⟨h2, ?_⟩
    rw [← h2]
    linear_combination h1
  · rintro ⟨h2, h1⟩
    refine ⟨?_, h2⟩
    rw [← h2] at h1
    linear_combination h1

theorem half_chord (a p : ℝ) : cis a - cis (a - p) = 2 * Real.sin (p / 2) * I * cis (a - p / 2) := by
  have h1 : cis a = cis (a - p / 2) * cis (p / 2) := by rw [← cis_add]; congr 1; ring
  have h2 : cis (a - p) = cis (a - p / 2) * cis (-(p / 2)) := by rw [← cis_add]; congr 1; ring
  have h3 : cis (p / 2) - cis (-(p / 2)) = 2 * Real.sin (p / 2) * I := by
    unfold cis
    rw [Complex.ext_iff]
    constructor
    · simp [-ofReal_sin]
    · simp [-ofReal_sin]
      ring
  rw [h1, h2, ← mul_sub, h3]; ring

/-- Three turns. -/
theorem ccc_iff {e : ℝ} (he : e = 1 ∨ e = -1) (l : Lens) (alpha beta d : ℝ) :
    move e l.q (move (-e) l.p (move e l.t (0, cis alpha))) = ((d : ℂ), cis beta) ↔
      cis (alpha + e * l.t - e * l.p + e * l.q) = cis beta ∧
        (4 * Real.sin (l.p / 2) : ℂ) * cis (alpha + e * l.t - e * l.p / 2) = d - e * I * cis alpha + e * I * cis beta := by
  have he' : -e = 1 ∨ -e = -1 := by rcases he with rfl | rfl <;> simp
  have hch : 2 * (e : ℂ) * I * (cis (alpha + e * l.t) - cis (alpha + e * l.t - e * l.p)) = -(4 * Real.sin (l.p / 2) : ℂ) * cis (alpha + e * l.t - e * l.p / 2) := by
    rw [half_chord]
    rcases he with rfl | rfl
    · simp only [one_mul, ofReal_one]; linear_combination 4 * (Real.sin (l.p / 2) : ℂ) * cis (alpha + l.t - l.p / 2) * I_sq
    · rw [show (-1 * l.p / 2 : ℝ) = -(l.p / 2) by ring, Real.sin_neg]
      push_cast
      linear_combination 4 * (sin (l.p / 2) : ℂ) * cis (alpha + -1 * l.t - -(l.p / 2)) * I_sq
  have e1 : cis (alpha + e * l.t) = cis alpha * cis (e * l.t) := cis_add _ _
  have e2 : cis (alpha + e * l.t - e * l.p) = cis alpha * cis (e * l.t) * cis (-e * l.p) := by
    rw [← cis_add, ← cis_add]; congr 1; ring
  have e3 : cis (alpha + e * l.t - e * l.p + e * l.q) = cis alpha * cis (e * l.t) * cis (-e * l.p) * cis (e * l.q) := by
    rw [cis_add, e2]
  rw [e1, e2] at hch
  rw [e3]
  unfold move
  simp only [disp_unit he, disp_unit he', Prod.mk.injEq, zero_add]
  generalize (Real.sin (l.p / 2) : ℂ) = S at *
  push_cast
  constructor
  · rintro ⟨h1, h2⟩
    refine ⟨h2, ?_⟩
    rw [← h2]
    linear_combination h1 + hch
  · rintro ⟨h2, h1⟩
    refine ⟨?_, h2⟩
    rw [← h2] at h1
    linear_combination h1 - hch

/-! ## Solutions -/

theorem mod2pi_congr {x y : ℝ} (h : cis x = cis y) : mod2pi x = mod2pi y :=
  le_antisymm (mod2pi_le (mod2pi_nonneg y) (by rw [cis_mod2pi, h])) (mod2pi_le (mod2pi_nonneg x) (by rw [cis_mod2pi, h]))

theorem cis_neg_congr {x y : ℝ} (h : cis x = cis y) : cis (-x) = cis (-y) := by
  have h1 := cis_neg x
  have h2 := cis_neg y
  rw [← h] at h2
  exact mul_left_cancel₀ (cis_ne_zero x) (h1.trans h2.symm)

theorem cis_unit_mod2pi {e : ℝ} (he : e = 1 ∨ e = -1) (x : ℝ) : cis (e * mod2pi x) = cis (e * x) := by
  rcases he with rfl | rfl
  · rw [one_mul, one_mul, cis_mod2pi]
  · rw [neg_one_mul, neg_one_mul]; exact cis_neg_congr (cis_mod2pi x)

/-- Vector to be produced by the middle segment. -/
noncomputable def chord (e f alpha beta d : ℝ) : ℂ := d - e * I * cis alpha + f * I * cis beta

theorem chord_re (e f alpha beta d : ℝ) : (chord e f alpha beta d).re = d + e * Real.sin alpha - f * Real.sin beta := by
  unfold chord cis; simp [sub_eq_add_neg]

theorem chord_im (e f alpha beta d : ℝ) : (chord e f alpha beta d).im = -e * Real.cos alpha + f * Real.cos beta := by
  unfold chord cis; simp

theorem chord_norm {e f : ℝ} (he : e = 1 ∨ e = -1) (hf : f = 1 ∨ f = -1) (alpha beta d : ℝ) :
    ‖chord e f alpha beta d‖ ^ 2 = d * d + 2 + 2 * d * (e * Real.sin alpha - f * Real.sin beta) - 2 * e * f * Real.cos (alpha - beta) := by
  rw [Complex.sq_norm, Complex.normSq_apply, chord_re, chord_im, Real.cos_sub]
  have e2 : e * e = 1 := by rcases he with rfl | rfl <;> norm_num
  have f2 : f * f = 1 := by rcases hf with rfl | rfl <;> norm_num
  have h1 := Real.cos_sq_add_sin_sq alpha
  have h2 := Real.cos_sq_add_sin_sq beta
  linear_combination e * e * h1 + f * f * h2 + e2 + f2

/-- Square of the length of the line. -/
noncomputable def pSq (e f alpha beta d : ℝ) : ℝ := ‖chord e f alpha beta d‖ ^ 2 - (e - f) ^ 2

/-- The line, seen from the middle of the turns. -/
noncomputable def lineVec (e f p : ℝ) : ℂ := p - (e - f) * I

theorem lineVec_norm (e f p : ℝ) : ‖lineVec e f p‖ ^ 2 = p ^ 2 + (e - f) ^ 2 := by
  rw [Complex.sq_norm, Complex.normSq_apply]; unfold lineVec; simp; ring

/-- Turn, line, turn. -/
noncomputable def csc (e f alpha beta d : ℝ) : Option Lens :=
  if pSq e f alpha beta d < 0 then none
  else
    let p := Real.sqrt (pSq e f alpha beta d)
    let tau := arg (chord e f alpha beta d) - arg (lineVec e f p)
    some ⟨mod2pi (e * (tau - alpha)), p, mod2pi (f * (beta - tau))⟩

theorem csc_tau {e f alpha beta d : ℝ} (h : 0 ≤ pSq e f alpha beta d) :
    lineVec e f (Real.sqrt (pSq e f alpha beta d)) * cis (arg (chord e f alpha beta d) - arg (lineVec e f (Real.sqrt (pSq e f alpha beta d)))) = chord e f alpha beta d := by
  set w := chord e f alpha beta d with hw
  set v := lineVec e f (Real.sqrt (pSq e f alpha beta d)) with hv
  have hn : ‖v‖ = ‖w‖ := by
    have h1 : ‖v‖ ^ 2 = ‖w‖ ^ 2 := by
      rw [hv, lineVec_norm, Real.sq_sqrt h]; unfold pSq; ring
    exact (sq_eq_sq₀ (norm_nonneg _) (norm_nonneg _)).1 h1
  have e1 := eq_norm_cis v
  have e2 := eq_norm_cis w
  calc v * cis (arg w - arg v) = (‖v‖ : ℂ) * (cis (arg w - arg v) * cis (arg v)) := by
        conv_lhs => lhs; rw [e1]
        ring
    _ = (‖w‖ : ℂ) * cis (arg w) := by rw [cis_sub, hn]
    _ = w := e2.symm

/-- The solution leads to the target. -/
theorem csc_reaches {e f : ℝ} (he : e = 1 ∨ e = -1) (hf : f = 1 ∨ f = -1) {alpha beta d : ℝ} {l : Lens} (h : csc e f alpha beta d = some l) :
    (0 ≤ l.t ∧ 0 ≤ l.p ∧ 0 ≤ l.q) ∧ move f l.q (move 0 l.p (move e l.t (0, cis alpha))) = ((d : ℂ), cis beta) := by
  unfold csc at h
  by_cases hp : pSq e f alpha beta d < 0
  · rw [if_pos hp] at h; cases h
  · rw [if_neg hp] at h
    have hp := not_lt.1 hp
    have h := Option.some.inj h
    have ht := csc_tau hp
    subst h
    refine ⟨⟨mod2pi_nonneg _, Real.sqrt_nonneg _, mod2pi_nonneg _⟩, ?_⟩
    rw [csc_iff he hf]
    simp only
    generalize arg (chord e f alpha beta d) - arg (lineVec e f (Real.sqrt (pSq e f alpha beta d))) = tau at *
    have ee : ∀ x : ℝ, e * (e * x) = x := by intro x; rcases he with rfl | rfl <;> ring
    have ff : ∀ x : ℝ, f * (f * x) = x := by intro x; rcases hf with rfl | rfl <;> ring
    have h1 : cis (alpha + e * mod2pi (e * (tau - alpha))) = cis tau := by
      rw [cis_add, cis_unit_mod2pi he, ee, ← cis_add]; congr 1; ring
    refine ⟨?_, ?_⟩
    · rw [cis_add, h1, cis_unit_mod2pi hf, ff, ← cis_add]; congr 1; ring
    · rw [h1]; exact ht

/-- When the middle segment is not degenerate, the solution is the shortest way to drive along the word. -/
theorem csc_shortest {e f : ℝ} (he : e = 1 ∨ e = -1) (hf : f = 1 ∨ f = -1) {alpha beta d : ℝ} {l : Lens} (ht : 0 ≤ l.t) (hp : 0 ≤ l.p) (hq : 0 ≤ l.q)
    (hw : chord e f alpha beta d ≠ 0) (h : move f l.q (move 0 l.p (move e l.t (0, cis alpha))) = ((d : ℂ), cis beta)) :
    ∃ b, csc e f alpha beta d = some b ∧ b.t ≤ l.t ∧ b.p = l.p ∧ b.q ≤ l.q := by
  rw [csc_iff he hf] at h
  obtain ⟨h1, h2⟩ := h
  have h2 : lineVec e f l.p * cis (alpha + e * l.t) = chord e f alpha beta d := h2
  have hpp : pSq e f alpha beta d = l.p ^ 2 := by
    unfold pSq
    rw [← h2, norm_mul, norm_cis, mul_one, lineVec_norm]; ring
  have hsq : Real.sqrt (pSq e f alpha beta d) = l.p := by rw [hpp, Real.sqrt_sq hp]
  have hnn : 0 ≤ pSq e f alpha beta d := by rw [hpp]; positivity
  have htau := csc_tau hnn
  refine ⟨_, by unfold csc; rw [if_neg (not_lt.2 hnn)], ?_, hsq, ?_⟩
  all_goals
    simp only
    rw [hsq] at htau ⊢
    generalize arg (chord e f alpha beta d) - arg (lineVec e f l.p) = tau at *
    have hv : lineVec e f l.p ≠ 0 := by
      intro h0; rw [h0, zero_mul] at h2; exact hw h2.symm
    have hc : cis (alpha + e * l.t) = cis tau := mul_left_cancel₀ hv (h2.trans htau.symm)
  · refine mod2pi_le ht ?_
    have hc' : cis (e * l.t) = cis (tau - alpha) := by
      refine mul_left_cancel₀ (cis_ne_zero alpha) ?_
      rw [← cis_add, hc, ← cis_add]; congr 1; ring
    rcases he with rfl | rfl
    · simpa using hc'
    · have := cis_neg_congr hc'
      simpa using this
  · refine mod2pi_le hq ?_
    have hc' : cis (f * l.q) = cis (beta - tau) := by
      refine mul_left_cancel₀ (cis_ne_zero tau) ?_
      rw [← hc, ← cis_add, h1, hc, ← cis_add]; congr 1; ring
    rcases hf with rfl | rfl
    · simpa using hc'
    · have := cis_neg_congr hc'
      simpa using this

/-- Three turns. -/
noncomputable def ccc (e alpha beta d : ℝ) : Option Lens :=
  let w := chord e e alpha beta d
  let tmp := (8 - ‖w‖ ^ 2) / 8
  if 1 < |tmp| then none
  else
    let p := mod2pi (2 * Real.pi - Real.arccos tmp)
    let t := mod2pi (e * (arg w - alpha) + p / 2)
    some ⟨t, p, mod2pi (e * (beta - alpha) - t + p)⟩

theorem cos_mid {x : ℝ} (h : |x| ≤ 1) : Real.cos (mod2pi (2 * Real.pi - Real.arccos x)) = x := by
  have hc : Real.cos (mod2pi (2 * Real.pi - Real.arccos x)) = Real.cos (2 * Real.pi - Real.arccos x) := by
    have := congrArg Complex.re (cis_mod2pi (2 * Real.pi - Real.arccos x))
    simpa only [cis] using this
  rw [hc, Real.cos_two_pi_sub, Real.cos_arccos (neg_le_of_abs_le h) (le_of_abs_le h)]

theorem ccc_reaches {e : ℝ} (he : e = 1 ∨ e = -1) {alpha beta d : ℝ} {l : Lens} (h : ccc e alpha beta d = some l) :
    (0 ≤ l.t ∧ 0 ≤ l.p ∧ 0 ≤ l.q) ∧ move e l.q (move (-e) l.p (move e l.t (0, cis alpha))) = ((d : ℂ), cis beta) := by
  unfold ccc at h
  simp only at h
  by_cases hp : 1 < |(8 - ‖chord e e alpha beta d‖ ^ 2) / 8|
  · rw [if_pos hp] at h; cases h
  · rw [if_neg hp] at h
    have hp := not_lt.1 hp
    have h := Option.some.inj h
    subst h
    refine ⟨⟨mod2pi_nonneg _, mod2pi_nonneg _, mod2pi_nonneg _⟩, ?_⟩
    rw [ccc_iff he]
    simp only
    have hcos := cos_mid hp
    have hp0 := mod2pi_nonneg (2 * Real.pi - Real.arccos ((8 - ‖chord e e alpha beta d‖ ^ 2) / 8))
    have hp1 := mod2pi_lt (2 * Real.pi - Real.arccos ((8 - ‖chord e e alpha beta d‖ ^ 2) / 8))
    generalize mod2pi (2 * Real.pi - Real.arccos ((8 - ‖chord e e alpha beta d‖ ^ 2) / 8)) = p at *
    have ee : ∀ x : ℝ, e * (e * x) = x := by intro x; rcases he with rfl | rfl <;> ring
    have hs : 4 * Real.sin (p / 2) = ‖chord e e alpha beta d‖ := by
      have hsn : 0 ≤ Real.sin (p / 2) := Real.sin_nonneg_of_nonneg_of_le_pi (by linarith) (by linarith)
      refine (sq_eq_sq₀ (by linarith) (norm_nonneg _)).1 ?_
      have h2 := Real.cos_sq_add_sin_sq (p / 2)
      have h3 := Real.cos_two_mul (p / 2)
      rw [show 2 * (p / 2) = p by ring] at h3
      rw [h3] at hcos
      linear_combination 16 * h2 - 8 * hcos
    have h1 : cis (alpha + e * mod2pi (e * (arg (chord e e alpha beta d) - alpha) + p / 2) - e * p / 2) = cis (arg (chord e e alpha beta d)) := by
      rw [sub_eq_add_neg, cis_add, cis_add, cis_unit_mod2pi he, mul_add, ee, ← cis_add, ← cis_add]; congr 1; ring
    constructor
    · rw [cis_add _ (e * mod2pi _), cis_unit_mod2pi he, ← cis_add]
      congr 1
      generalize mod2pi (e * (arg (chord e e alpha beta d) - alpha) + p / 2) = t
      linear_combination ee (beta - alpha)
    · rw [h1]
      have := eq_norm_cis (chord e e alpha beta d)
      rw [← hs] at this
      push_cast at this ⊢
      exact this.symm

/-- The solution is the shortest way to drive along the word with a middle turn of at least π. -/
theorem ccc_shortest {e : ℝ} (he : e = 1 ∨ e = -1) {alpha beta d : ℝ} {l : Lens} (ht : 0 ≤ l.t) (hp : Real.pi ≤ l.p) (hp2 : l.p < 2 * Real.pi) (hq : 0 ≤ l.q)
    (h : move e l.q (move (-e) l.p (move e l.t (0, cis alpha))) = ((d : ℂ), cis beta)) :
    ∃ b, ccc e alpha beta d = some b ∧ b.t ≤ l.t ∧ b.p = l.p ∧ b.q ≤ l.q := by
  have hpi := Real.pi_pos
  rw [ccc_iff he] at h
  obtain ⟨h1, h2⟩ := h
  have h2 : (4 * Real.sin (l.p / 2) : ℂ) * cis (alpha + e * l.t - e * l.p / 2) = chord e e alpha beta d := h2
  have hsn : 0 < Real.sin (l.p / 2) := Real.sin_pos_of_pos_of_lt_pi (by linarith) (by linarith)
  have hr : (0 : ℝ) < 4 * Real.sin (l.p / 2) := by linarith
  have h2' : chord e e alpha beta d = ((4 * Real.sin (l.p / 2) : ℝ) : ℂ) * cis (alpha + e * l.t - e * l.p / 2) := by rw [← h2]; push_cast; rfl
  have harg := arg_spec hr h2'
  have hnorm : ‖chord e e alpha beta d‖ = 4 * Real.sin (l.p / 2) := by
    rw [h2', norm_mul, norm_cis, mul_one, Complex.norm_real, Real.norm_of_nonneg hr.le]
  have htmp : (8 - ‖chord e e alpha beta d‖ ^ 2) / 8 = Real.cos l.p := by
    rw [hnorm]
    have h2 := Real.cos_sq_add_sin_sq (l.p / 2)
    have h3 := Real.cos_two_mul (l.p / 2)
    rw [show 2 * (l.p / 2) = l.p by ring] at h3
    linear_combination -2 * h2 - h3
  have hmid : mod2pi (2 * Real.pi - Real.arccos (Real.cos l.p)) = l.p := by
    have : Real.arccos (Real.cos l.p) = 2 * Real.pi - l.p := by
      rw [← Real.cos_two_pi_sub, Real.arccos_cos (by linarith) (by linarith)]
    rw [this, sub_sub_cancel, mod2pi_of_mem (by linarith) hp2]
  have ee : ∀ x : ℝ, e * (e * x) = x := by intro x; rcases he with rfl | rfl <;> ring
  have unit : ∀ x y : ℝ, cis (e * x) = cis y → cis x = cis (e * y) := by
    intro x y hxy
    rcases he with rfl | rfl
    · simpa using hxy
    · have := cis_neg_congr hxy; simpa using this
  have htm : mod2pi (e * (arg (chord e e alpha beta d) - alpha) + l.p / 2) ≤ l.t ∧
      cis (mod2pi (e * (arg (chord e e alpha beta d) - alpha) + l.p / 2)) = cis l.t := by
    have hc : cis l.t = cis (e * (arg (chord e e alpha beta d) - alpha) + l.p / 2) := by
      have : cis (e * l.t) = cis (arg (chord e e alpha beta d) - alpha + e * l.p / 2) := by
        refine mul_left_cancel₀ (cis_ne_zero (alpha - e * l.p / 2)) ?_
        rw [← cis_add, ← cis_add, show alpha - e * l.p / 2 + e * l.t = alpha + e * l.t - e * l.p / 2 by ring, ← harg]
        congr 1; ring
      rw [unit _ _ this, mul_add, mul_div_assoc, ee]
    exact ⟨mod2pi_le ht hc, by rw [cis_mod2pi, hc]⟩
  refine ⟨_, by unfold ccc; simp only; rw [htmp, if_neg (not_lt.2 (Real.abs_cos_le_one _))], ?_, hmid, ?_⟩
  · simp only [hmid]; exact htm.1
  · simp only [hmid]
    refine mod2pi_le hq ?_
    rw [show e * (beta - alpha) - mod2pi (e * (arg (chord e e alpha beta d) - alpha) + l.p / 2) + l.p =
      -mod2pi (e * (arg (chord e e alpha beta d) - alpha) + l.p / 2) + (e * (beta - alpha) + l.p) by ring, cis_add, cis_neg_congr htm.2, ← cis_add]
    have : cis (e * l.q) = cis (beta - alpha - e * l.t + e * l.p) := by
      refine mul_left_cancel₀ (cis_ne_zero (alpha + e * l.t - e * l.p)) ?_
      rw [← cis_add, h1, ← cis_add]; congr 1; ring
    rw [unit _ _ this]
    congr 1
    rw [mul_add, mul_sub, ee, ee]; ring

/-! ## The functions of the code -/

theorem atan2_chord {e f alpha beta d y x : ℝ} (hx : x = d + e * Real.sin alpha - f * Real.sin beta) (hy : y = -e * Real.cos alpha + f * Real.cos beta) :
    atan2 y x = arg (chord e f alpha beta d) := by
  unfold atan2
  congr 1
  rw [Complex.ext_iff, chord_re, chord_im]
  exact ⟨hx, hy⟩

theorem one_unit : (1 : ℝ) = 1 ∨ (1 : ℝ) = -1 := Or.inl rfl
theorem neg_unit : (-1 : ℝ) = 1 ∨ (-1 : ℝ) = -1 := Or.inr rfl

theorem arg_line_same (e p : ℝ) (hp : 0 ≤ p) : arg (lineVec e e p) = 0 := by
  unfold lineVec; rw [sub_self, zero_mul, sub_zero]; exact Complex.arg_ofReal_of_nonneg hp

theorem LSL_eq (alpha beta d : ℝ) : dubinsLSL alpha beta d = csc 1 1 alpha beta d := by
  have hp : 2 + d * d - 2 * Real.cos (alpha - beta) + 2 * d * (Real.sin alpha - Real.sin beta) = pSq 1 1 alpha beta d := by
    unfold pSq; rw [chord_norm one_unit one_unit]; ring
  unfold dubinsLSL csc
  simp only [hp, atan2_chord (e := 1) (f := 1) (alpha := alpha) (beta := beta) (d := d) (x := d + Real.sin alpha - Real.sin beta) (show _ = _ by ring)
    (y := Real.cos beta - Real.cos alpha) (show _ = _ by ring), arg_line_same 1 _ (Real.sqrt_nonneg _)]
  rw [sub_zero, show -alpha + arg (chord 1 1 alpha beta d) = 1 * (arg (chord 1 1 alpha beta d) - alpha) by ring, one_mul, one_mul]

theorem RSR_eq (alpha beta d : ℝ) : dubinsRSR alpha beta d = csc (-1) (-1) alpha beta d := by
  have hp : 2 + d * d - 2 * Real.cos (alpha - beta) + 2 * d * (Real.sin beta - Real.sin alpha) = pSq (-1) (-1) alpha beta d := by
    unfold pSq; rw [chord_norm neg_unit neg_unit]; ring
  unfold dubinsRSR csc
  simp only [hp, atan2_chord (e := -1) (f := -1) (alpha := alpha) (beta := beta) (d := d) (x := d - Real.sin alpha + Real.sin beta) (show _ = _ by ring)
    (y := Real.cos alpha - Real.cos beta) (show _ = _ by ring), arg_line_same (-1) _ (Real.sqrt_nonneg _)]
  rw [sub_zero, show alpha - arg (chord (-1) (-1) alpha beta d) = -1 * (arg (chord (-1) (-1) alpha beta d) - alpha) by ring,
    show -beta + arg (chord (-1) (-1) alpha beta d) = -1 * (beta - arg (chord (-1) (-1) alpha beta d)) by ring]

theorem LSR_eq (alpha beta d : ℝ) : dubinsLSR alpha beta d = csc 1 (-1) alpha beta d := by
  have hp : -2 + d * d + 2 * Real.cos (alpha - beta) + 2 * d * (Real.sin alpha + Real.sin beta) = pSq 1 (-1) alpha beta d := by
    unfold pSq; rw [chord_norm one_unit neg_unit]; ring
  have hv : ∀ p : ℝ, atan2 (-2) p = arg (lineVec 1 (-1) p) := by
    intro p; unfold atan2 lineVec; congr 1; rw [Complex.ext_iff]; simp; norm_num
  unfold dubinsLSR csc
  simp only [hp, hv, atan2_chord (e := 1) (f := -1) (alpha := alpha) (beta := beta) (d := d) (x := d + Real.sin alpha + Real.sin beta) (show _ = _ by ring)
    (y := -Real.cos alpha - Real.cos beta) (show _ = _ by ring)]
  generalize arg (chord 1 (-1) alpha beta d) - arg (lineVec 1 (-1) (Real.sqrt (pSq 1 (-1) alpha beta d))) = tau
  rw [show -alpha + tau = 1 * (tau - alpha) by ring]
  have : mod2pi (-mod2pi beta + tau) = mod2pi (-1 * (beta - tau)) := by
    apply mod2pi_congr
    rw [cis_add, cis_neg_congr (cis_mod2pi beta), ← cis_add]; congr 1; ring
  rw [this]

theorem RSL_eq (alpha beta d : ℝ) : dubinsRSL alpha beta d = csc (-1) 1 alpha beta d := by
  have hp : d * d - 2 + 2 * Real.cos (alpha - beta) - 2 * d * (Real.sin alpha + Real.sin beta) = pSq (-1) 1 alpha beta d := by
    unfold pSq; rw [chord_norm neg_unit one_unit]; ring
  have hv : ∀ p : ℝ, atan2 2 p = arg (lineVec (-1) 1 p) := by
    intro p; unfold atan2 lineVec; congr 1; rw [Complex.ext_iff]; simp; norm_num
  unfold dubinsRSL csc
  simp only [hp, hv, atan2_chord (e := -1) (f := 1) (alpha := alpha) (beta := beta) (d := d) (x := d - Real.sin alpha - Real.sin beta) (show _ = _ by ring)
    (y := Real.cos alpha + Real.cos beta) (show _ = _ by ring)]
  generalize arg (chord (-1) 1 alpha beta d) - arg (lineVec (-1) 1 (Real.sqrt (pSq (-1) 1 alpha beta d))) = tau
  rw [show alpha - tau = -1 * (tau - alpha) by ring, one_mul]

theorem RLR_eq (alpha beta d : ℝ) : dubinsRLR alpha beta d = ccc (-1) alpha beta d := by
  have hp : (6 - d * d + 2 * Real.cos (alpha - beta) + 2 * d * (Real.sin alpha - Real.sin beta)) / 8 = (8 - ‖chord (-1) (-1) alpha beta d‖ ^ 2) / 8 := by
    rw [chord_norm neg_unit neg_unit]; ring
  unfold dubinsRLR ccc
  simp only [hp, atan2_chord (e := -1) (f := -1) (alpha := alpha) (beta := beta) (d := d) (x := d - Real.sin alpha + Real.sin beta) (show _ = _ by ring)
    (y := Real.cos alpha - Real.cos beta) (show _ = _ by ring)]
  have hp0 := mod2pi_nonneg (2 * Real.pi - Real.arccos ((8 - ‖chord (-1) (-1) alpha beta d‖ ^ 2) / 8))
  have hp1 := mod2pi_lt (2 * Real.pi - Real.arccos ((8 - ‖chord (-1) (-1) alpha beta d‖ ^ 2) / 8))
  generalize mod2pi (2 * Real.pi - Real.arccos ((8 - ‖chord (-1) (-1) alpha beta d‖ ^ 2) / 8)) = p at *
  rw [mod2pi_of_mem hp0 hp1, mod2pi_of_mem (x := p / 2) (by linarith) (by linarith),
    show alpha - arg (chord (-1) (-1) alpha beta d) + p / 2 = -1 * (arg (chord (-1) (-1) alpha beta d) - alpha) + p / 2 by ring]
  generalize mod2pi (-1 * (arg (chord (-1) (-1) alpha beta d) - alpha) + p / 2) = t
  rw [show alpha - beta - t + p = -1 * (beta - alpha) - t + p by ring]

theorem LRL_eq (alpha beta d : ℝ) : dubinsLRL alpha beta d = ccc 1 alpha beta d := by
  have hp : (6 - d * d + 2 * Real.cos (alpha - beta) + 2 * d * (-Real.sin alpha + Real.sin beta)) / 8 = (8 - ‖chord 1 1 alpha beta d‖ ^ 2) / 8 := by
    rw [chord_norm one_unit one_unit]; ring
  have ha : cis (-atan2 (Real.cos alpha - Real.cos beta) (d + Real.sin alpha - Real.sin beta)) = cis (arg (chord 1 1 alpha beta d)) := by
    have : (⟨d + Real.sin alpha - Real.sin beta, Real.cos alpha - Real.cos beta⟩ : ℂ) = (starRingEnd ℂ) (chord 1 1 alpha beta d) := by
      rw [Complex.ext_iff, Complex.conj_re, Complex.conj_im, chord_re, chord_im]
      constructor <;> ring
    unfold atan2
    rw [this, Complex.arg_conj]
    split
    · rename_i h
      rw [h]
      unfold cis
      simp
    · rw [neg_neg]
  unfold dubinsLRL ccc
  simp only [hp]
  have hp0 := mod2pi_nonneg (2 * Real.pi - Real.arccos ((8 - ‖chord 1 1 alpha beta d‖ ^ 2) / 8))
  have hp1 := mod2pi_lt (2 * Real.pi - Real.arccos ((8 - ‖chord 1 1 alpha beta d‖ ^ 2) / 8))
  generalize mod2pi (2 * Real.pi - Real.arccos ((8 - ‖chord 1 1 alpha beta d‖ ^ 2) / 8)) = p at *
  have ht : mod2pi (-alpha - atan2 (Real.cos alpha - Real.cos beta) (d + Real.sin alpha - Real.sin beta) + p / 2) = mod2pi (1 * (arg (chord 1 1 alpha beta d) - alpha) + p / 2) := by
    apply mod2pi_congr
    rw [show -alpha - atan2 (Real.cos alpha - Real.cos beta) (d + Real.sin alpha - Real.sin beta) + p / 2 =
      -atan2 (Real.cos alpha - Real.cos beta) (d + Real.sin alpha - Real.sin beta) + (-alpha + p / 2) by ring, cis_add, ha, ← cis_add]
    congr 1; ring
  rw [ht, mod2pi_of_mem hp0 hp1]
  generalize mod2pi (1 * (arg (chord 1 1 alpha beta d) - alpha) + p / 2) = t
  have hq : mod2pi (mod2pi beta - alpha - t + p) = mod2pi (1 * (beta - alpha) - t + p) := by
    apply mod2pi_congr
    rw [show mod2pi beta - alpha - t + p = mod2pi beta + (-alpha - t + p) by ring, cis_add, cis_mod2pi, ← cis_add]
    congr 1; ring
  rw [hq]

end Verif.Car
