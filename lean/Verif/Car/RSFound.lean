import Verif.Car.RSPath
set_option linter.unusedSectionVars false

/-!
# Words of Reeds and Shepp: there is always a word (C88)

Close targets are reached by three turns (`C88_near_found`).  Far from the initial pose: with `E` the ordinate of the initial pose seen from the target, up to sign,
words turn-turn-line-turn are found when `|y| > 1 + cos phi` or `|E| > 1 + cos phi`, and turn-line-turn otherwise, except when the target
looks exactly backward on the axis of the car.
-/
namespace Verif.Car.RS
open Complex

theorem mod2pi_nonneg {y : ℝ} (h1 : 0 ≤ Real.sin y) (h2 : 0 < Real.cos y) : 0 ≤ mod2pi y := by
  rcases h1.lt_or_eq with h | h
  · exact mod2pi_of_sin h
  · have e := cis_mod2pi y
    have ec : Real.cos (mod2pi y) = Real.cos y := by have := (Complex.ext_iff.1 e).1; simpa only [cis] using this
    have es : Real.sin (mod2pi y) = Real.sin y := by have := (Complex.ext_iff.1 e).2; simpa only [cis] using this
    have hc : Real.cos y = 1 := by
      have := Real.sin_sq_add_cos_sq y
      rw [← h] at this
      nlinarith
    have ha := abs_le.1 (mod2pi_abs y)
    have hpi := Real.pi_pos
    rw [hc, Real.cos_eq_one_iff_of_lt_of_lt (by linarith) (by linarith)] at ec
    exact ec.ge

theorem mod2pi_neg {y : ℝ} (h : Real.sin y < 0) : mod2pi y ≤ 0 := by
  by_contra hc
  have hc := not_le.1 hc
  have e : Real.sin (mod2pi y) = Real.sin y := by have := (Complex.ext_iff.1 (cis_mod2pi y)).2; simpa only [cis] using this
  have := Real.sin_nonneg_of_nonneg_of_le_pi hc.le (abs_le.1 (mod2pi_abs y)).2
  linarith

theorem polar_re_im (x y : ℝ) : x = polarR x y * Real.cos (atan2 y x) ∧ y = polarR x y * Real.sin (atan2 y x) := by
  have e := polar_spec x y
  have h1 := (Complex.ext_iff.1 e).1
  have h2 := (Complex.ext_iff.1 e).2
  simp only [Complex.re_ofReal_mul, Complex.im_ofReal_mul, cis] at h1 h2
  exact ⟨h1, h2⟩

theorem atan2_nonneg {x y : ℝ} (h : 0 ≤ y) : 0 ≤ atan2 y x := by
  unfold atan2
  rw [Complex.arg_nonneg_iff]; exact h

section
variable {zero : ℝ} (hz : 0 ≤ zero) {x y k s phi : ℝ} (hk : Real.cos phi = k) (hs : Real.sin phi = s)
include hz hk hs

theorem LpSpLp_some (h1 : 0 ≤ y - 1 + k) (h2 : 0 ≤ (x - s) * s - (y - 1 + k) * k) (h3 : 0 < (x - s) * k + (y - 1 + k) * s) :
    ∃ l, LpSpLp zero ⟨x, y⟩ ⟨k, s⟩ phi = some l := by
  unfold LpSpLp
  simp only
  have ht : 0 ≤ atan2 (y - 1 + k) (x - s) := atan2_nonneg h1
  obtain ⟨e1, e2⟩ := polar_re_im (x - s) (y - 1 + k)
  have hu := polarR_nonneg (x - s) (y - 1 + k)
  generalize atan2 (y - 1 + k) (x - s) = t at *
  generalize polarR (x - s) (y - 1 + k) = u at *
  have f1 : u * Real.sin (phi - t) = (x - s) * s - (y - 1 + k) * k := by
    rw [Real.sin_sub, hk, hs]; linear_combination -s * e1 + k * e2
  have f2 : u * Real.cos (phi - t) = (x - s) * k + (y - 1 + k) * s := by
    rw [Real.cos_sub, hk, hs]; linear_combination -k * e1 - s * e2
  have hv : 0 ≤ mod2pi (phi - t) := by
    have hu0 : 0 < u := lt_of_le_of_ne hu fun h => by rw [← h] at f2; linarith
    apply mod2pi_nonneg
    · by_contra hc
      have := mul_neg_of_pos_of_neg hu0 (not_le.1 hc); linarith
    · by_contra hc
      have := mul_nonpos_of_nonneg_of_nonpos hu (not_lt.1 hc); linarith
  rw [if_pos (by linarith), if_pos (by linarith)]
  exact ⟨_, rfl⟩

theorem LpSpRp_some (hr : 4 < (x + s) * (x + s) + (y - 1 - k) * (y - 1 - k)) (h1 : 0 < x + s) (h2 : -2 ≤ y - 1 - k) (h3 : y - 1 - k ≤ 0)
    (h4 : 0 < (x + s) * k + (y - 1 - k) * s) (h5 : -2 ≤ (y - 1 - k) * k - (x + s) * s) (h6 : (y - 1 - k) * k - (x + s) * s ≤ 0) :
    ∃ l, LpSpRp zero ⟨x, y⟩ ⟨k, s⟩ phi = some l := by
  unfold LpSpRp
  simp only
  obtain ⟨e1, e2⟩ := polar_re_im (x + s) (y - 1 - k)
  have hu := polarR_nonneg (x + s) (y - 1 - k)
  have hr2 : polarR (x + s) (y - 1 - k) * polarR (x + s) (y - 1 - k) = (x + s) * (x + s) + (y - 1 - k) * (y - 1 - k) :=
    Real.mul_self_sqrt (by nlinarith [mul_self_nonneg (x + s), mul_self_nonneg (y - 1 - k)])
  generalize atan2 (y - 1 - k) (x + s) = t1 at *
  generalize polarR (x + s) (y - 1 - k) = r at *
  have hks : k ^ 2 + s ^ 2 = 1 := by rw [← hk, ← hs]; exact Real.cos_sq_add_sin_sq phi
  generalize hξ : x + s = ξ at *
  generalize hη : y - 1 - k = η at *
  rw [if_pos (by linarith)]
  have hu2 : Real.sqrt (r * r - 4) * Real.sqrt (r * r - 4) = r * r - 4 := Real.mul_self_sqrt (by linarith)
  have hu0 : 0 < Real.sqrt (r * r - 4) := Real.sqrt_pos.2 (by linarith)
  obtain ⟨g1, g2⟩ := polar_re_im (Real.sqrt (r * r - 4)) 2
  have hrr : polarR (Real.sqrt (r * r - 4)) 2 = r := by
    unfold polarR
    rw [hu2, show r * r - 4 + 2 * 2 = r * r by ring, Real.sqrt_mul_self hu]
  rw [hrr] at g1 g2
  generalize atan2 2 (Real.sqrt (r * r - 4)) = θ at *
  generalize Real.sqrt (r * r - 4) = u at *
  have hrpos : 0 < r * r := by linarith
  -- sine and cosine of the first turn
  have a1 : r * r * Real.sin (t1 + θ) = η * u + 2 * ξ := by
    rw [Real.sin_add]; linear_combination (-u) * e2 - 2 * e1 - r * Real.sin t1 * g1 - r * Real.cos t1 * g2
  have a2 : r * r * Real.cos (t1 + θ) = ξ * u - 2 * η := by
    rw [Real.cos_add]; linear_combination (-u) * e1 + 2 * e2 - r * Real.cos t1 * g1 + r * Real.sin t1 * g2
  have tang : ∀ X Y : ℝ, 0 < X → -2 ≤ Y → Y ≤ 0 → X * X + Y * Y = r * r → 0 ≤ Y * u + 2 * X ∧ 0 < X * u - 2 * Y := by
    intro X Y hX hY hY' hXY
    refine ⟨?_, by nlinarith [mul_pos hX hu0]⟩
    by_contra hc
    have hc := not_le.1 hc
    -- 2 X < -Y u, hence 4 X² < Y² u²
    have h7 : 0 < -(Y * u) - 2 * X := by linarith
    have h8 : 0 < -(Y * u) + 2 * X := by nlinarith
    have h9 := mul_pos h7 h8
    have h10 : Y * Y ≤ 4 := by nlinarith
    have h11 : (-(Y * u) - 2 * X) * (-(Y * u) + 2 * X) = (Y * Y - 4) * (r * r) := by
      linear_combination (Y * Y) * hu2 - 4 * hXY
    rw [h11] at h9
    nlinarith
  obtain ⟨b1, b2⟩ := tang ξ η h1 h2 h3 hr2.symm
  have hrot : (ξ * k + η * s) * (ξ * k + η * s) + (η * k - ξ * s) * (η * k - ξ * s) = r * r := by
    linear_combination (ξ * ξ + η * η) * hks - hr2
  obtain ⟨b3, b4⟩ := tang (ξ * k + η * s) (η * k - ξ * s) h4 h5 h6 hrot
  have hmul : ∀ a b : ℝ, r * r * a = b → 0 ≤ b → 0 ≤ a := by
    intro a b hab hb
    by_contra hc
    have := mul_neg_of_pos_of_neg hrpos (not_le.1 hc); linarith
  have hmul' : ∀ a b : ℝ, r * r * a = b → 0 < b → 0 < a := by
    intro a b hab hb
    by_contra hc
    have := mul_nonpos_of_nonneg_of_nonpos hrpos.le (not_lt.1 hc); linarith
  have ht : 0 ≤ mod2pi (t1 + θ) := mod2pi_nonneg (hmul _ _ a1 b1) (hmul' _ _ a2 b2)
  have em := cis_mod2pi (t1 + θ)
  have ec : Real.cos (mod2pi (t1 + θ)) = Real.cos (t1 + θ) := by have := (Complex.ext_iff.1 em).1; simpa only [cis] using this
  have es : Real.sin (mod2pi (t1 + θ)) = Real.sin (t1 + θ) := by have := (Complex.ext_iff.1 em).2; simpa only [cis] using this
  have hv : 0 ≤ mod2pi (mod2pi (t1 + θ) - phi) := by
    apply mod2pi_nonneg
    · refine hmul _ ((η * k - ξ * s) * u + 2 * (ξ * k + η * s)) ?_ b3
      rw [Real.sin_sub, ec, es, hk, hs]; linear_combination k * a1 - s * a2
    · refine hmul' _ ((ξ * k + η * s) * u - 2 * (η * k - ξ * s)) ?_ b4
      rw [Real.cos_sub, ec, es, hk, hs]; linear_combination k * a2 + s * a1
  rw [if_pos ⟨by linarith, by linarith⟩]
  exact ⟨_, rfl⟩

theorem LpRmSmRm_some (hr : 4 ≤ (x + s) * (x + s) + (y - 1 - k) * (y - 1 - k)) (h1 : 0 ≤ x + s) (h2 : (x + s) * s - (y - 1 - k) * k < 0) :
    ∃ l, LpRmSmRm zero ⟨x, y⟩ ⟨k, s⟩ phi = some l := by
  unfold LpRmSmRm
  simp only
  obtain ⟨e1, e2⟩ := polar_re_im (-(y - 1 - k)) (x + s)
  have hu := polarR_nonneg (-(y - 1 - k)) (x + s)
  have ht : 0 ≤ atan2 (x + s) (-(y - 1 - k)) := atan2_nonneg h1
  have h2r : 2 ≤ polarR (-(y - 1 - k)) (x + s) := by
    unfold polarR
    apply Real.le_sqrt_of_sq_le
    linarith
  generalize atan2 (x + s) (-(y - 1 - k)) = t at *
  generalize polarR (-(y - 1 - k)) (x + s) = r at *
  have hv : mod2pi (t + 1 / 2 * Real.pi - phi) ≤ 0 := by
    apply mod2pi_neg
    have e : Real.sin (t + 1 / 2 * Real.pi - phi) = Real.cos (t - phi) := by
      rw [show t + 1 / 2 * Real.pi - phi = t - phi + Real.pi / 2 by ring, Real.sin_add_pi_div_two]
    rw [e]
    have f : r * Real.cos (t - phi) = (x + s) * s - (y - 1 - k) * k := by
      rw [Real.cos_sub, hk, hs]; linear_combination (-k) * e1 - s * e2
    by_contra hc
    have := mul_nonneg hu (not_lt.1 hc)
    linarith
  rw [if_pos h2r, if_pos ⟨by linarith, by linarith, by linarith⟩]
  exact ⟨_, rfl⟩

end

/-- The target looks backward, on the axis of the car. -/
theorem LpRmSmLm_some {zero : ℝ} (hz : 0 ≤ zero) {x phi : ℝ} (hk : Real.cos phi = -1) (hx : 2 ≤ x) :
    ∃ l, LpRmSmLm zero ⟨x, 0⟩ ⟨-1, 0⟩ phi = some l := by
  unfold LpRmSmLm
  simp only
  obtain ⟨e1, e2⟩ := polar_re_im (x - 0) (0 - 1 + -1)
  have hr2 : polarR (x - 0) (0 - 1 + -1) * polarR (x - 0) (0 - 1 + -1) = x * x + 4 := by
    unfold polarR
    rw [Real.mul_self_sqrt (by nlinarith)]; ring
  have hr := polarR_nonneg (x - 0) (0 - 1 + -1)
  generalize polarR (x - 0) (0 - 1 + -1) = rho at *
  generalize atan2 (0 - 1 + -1) (x - 0) = theta at *
  have hrr : Real.sqrt (rho * rho - 4) = x := by
    rw [hr2, show x * x + 4 - 4 = x * x by ring, Real.sqrt_mul_self (by linarith)]
  rw [hrr]
  obtain ⟨g1, g2⟩ := polar_re_im (-2) x
  have hp : polarR (-2) x = rho := by
    unfold polarR
    rw [show (-2 : ℝ) * -2 + x * x = rho * rho by rw [hr2]; ring, Real.sqrt_mul_self hr]
  rw [hp] at g1 g2
  generalize atan2 x (-2) = a at *
  have hpos : 0 < rho * rho := by nlinarith
  have s1 : rho * rho * Real.sin (theta + a) = rho * rho := by
    rw [Real.sin_add]; linear_combination (2 : ℝ) * e2 + (-x) * e1 + rho * Real.cos theta * (-1) * g2 + (-rho * Real.sin theta) * g1 - hr2
  have s1' : Real.sin (theta + a) = 1 := mul_left_cancel₀ hpos.ne' (by rw [s1, mul_one])
  have c1' : Real.cos (theta + a) = 0 := by
    have := Real.sin_sq_add_cos_sq (theta + a)
    rw [s1'] at this
    have h0 : Real.cos (theta + a) ^ 2 = 0 := by linarith
    exact pow_eq_zero_iff (two_ne_zero) |>.1 h0
  have ht : 0 ≤ mod2pi (theta + a) := mod2pi_of_sin (by rw [s1']; norm_num)
  have em := cis_mod2pi (theta + a)
  have ec : Real.cos (mod2pi (theta + a)) = 0 := by have := (Complex.ext_iff.1 em).1; simpa only [cis, c1'] using this
  have es : Real.sin (mod2pi (theta + a)) = 1 := by have := (Complex.ext_iff.1 em).2; simpa only [cis, s1'] using this
  have hv : mod2pi (phi - 1 / 2 * Real.pi - mod2pi (theta + a)) ≤ 0 := by
    set w := phi - 1 / 2 * Real.pi - mod2pi (theta + a) with hw
    have e : Real.cos w = 1 := by
      rw [hw, Real.cos_sub, ec, es, show phi - 1 / 2 * Real.pi = phi - Real.pi / 2 by ring, Real.cos_sub_pi_div_two, Real.sin_sub_pi_div_two, hk]
      ring
    have ecw : Real.cos (mod2pi w) = 1 := by
      have := (Complex.ext_iff.1 (cis_mod2pi w)).1
      simp only [cis] at this
      rw [this, e]
    have ha := abs_le.1 (mod2pi_abs w)
    have hpi := Real.pi_pos
    rw [Real.cos_eq_one_iff_of_lt_of_lt (by linarith) (by linarith)] at ecw
    exact ecw.le
  rw [if_pos (by nlinarith), if_pos ⟨by linarith, by linarith, by linarith⟩]
  exact ⟨_, rfl⟩

/-! ## The variants of a formula -/

/-- One of the calls with the target and with the time flipped. -/
def Two (f : ℂ → ℂ → ℝ → Option Lens) (x y k s phi : ℝ) : Prop :=
  (∃ l, f ⟨x, y⟩ ⟨k, s⟩ phi = some l) ∨ ∃ l, f ⟨-x, y⟩ ⟨k, -s⟩ (-phi) = some l

/-- One of the four calls finds a word. -/
theorem four_some {f : ℂ → ℂ → ℝ → Option Lens} (id1 id2 : ℕ) (lens : Lens → List ℝ) (L : Lens → ℝ) {x y k s phi : ℝ}
    (h : Two f x y k s phi ∨ Two f x (-y) k (-s) (-phi)) : ∃ c, some c ∈ four f id1 id2 lens L ⟨x, y⟩ ⟨k, s⟩ phi := by
  have e1 : oneMP ⟨x, y⟩ = ⟨-x, y⟩ := by simp [oneMP]
  have e2 : onePM ⟨x, y⟩ = ⟨x, -y⟩ := by simp [onePM]
  have e3 : onePM ⟨k, s⟩ = ⟨k, -s⟩ := by simp [onePM]
  have e4 : -(⟨x, y⟩ : ℂ) = ⟨-x, -y⟩ := rfl
  unfold four
  rw [e1, e2, e3, e4]
  rcases h with (⟨l, h⟩ | ⟨l, h⟩) | (⟨l, h⟩ | ⟨l, h⟩)
  · rw [h]; exact ⟨_, List.mem_cons_self⟩
  · rw [h]; exact ⟨_, List.mem_cons_of_mem _ List.mem_cons_self⟩
  · rw [h]; exact ⟨_, List.mem_cons_of_mem _ (List.mem_cons_of_mem _ List.mem_cons_self)⟩
  · rw [neg_neg, neg_neg] at h
    rw [h]; exact ⟨_, List.mem_cons_of_mem _ (List.mem_cons_of_mem _ (List.mem_cons_of_mem _ List.mem_cons_self))⟩

section
variable {zero : ℝ} (hz : 0 ≤ zero) {x y k s phi : ℝ} (hk : Real.cos phi = k) (hs : Real.sin phi = s)
include hz hk hs

theorem two_LpRmSmRm (hr : 4 ≤ (x + s) * (x + s) + (y - 1 - k) * (y - 1 - k)) (h : x * s - y * k + 1 + k < 0) : Two (LpRmSmRm zero) x y k s phi := by
  have hks : k ^ 2 + s ^ 2 = 1 := by rw [← hk, ← hs]; exact Real.cos_sq_add_sin_sq phi
  rcases le_total 0 (x + s) with h1 | h1
  · left
    exact LpRmSmRm_some hz hk hs hr h1 (by nlinarith)
  · right
    exact LpRmSmRm_some hz (by rw [Real.cos_neg, hk]) (by rw [Real.sin_neg, hs]) (by nlinarith) (by linarith) (by nlinarith)

/-- Turn, line, turn. -/
theorem csc_pos (p1 : 4 < (x + s) * (x + s) + (y - 1 - k) * (y - 1 - k)) (p2 : 4 < (x - s) * (x - s) + (y + 1 + k) * (y + 1 + k))
    (y1 : -(1 + k) ≤ y) (y2 : y ≤ 1 + k) (E1 : -(1 + k) ≤ x * s - y * k) (E2 : x * s - y * k ≤ 1 + k)
    (x1 : 0 < x + s) (x2 : 0 < x - s) (x3 : 0 < x * k + y * s + s) (x4 : 0 < x * k + y * s - s) :
    ((∃ l, LpSpLp zero ⟨x, y⟩ ⟨k, s⟩ phi = some l) ∨ ∃ l, LpSpLp zero ⟨x, -y⟩ ⟨k, -s⟩ (-phi) = some l) ∨
      (∃ l, LpSpRp zero ⟨x, y⟩ ⟨k, s⟩ phi = some l) ∨ ∃ l, LpSpRp zero ⟨x, -y⟩ ⟨k, -s⟩ (-phi) = some l := by
  have hks : k ^ 2 + s ^ 2 = 1 := by rw [← hk, ← hs]; exact Real.cos_sq_add_sin_sq phi
  have hk' : Real.cos (-phi) = k := by rw [Real.cos_neg, hk]
  have hs' : Real.sin (-phi) = -s := by rw [Real.sin_neg, hs]
  have hk1 : k ≤ 1 := by rw [← hk]; exact Real.cos_le_one _
  by_cases c1 : 1 - k ≤ y ∧ 1 - k ≤ x * s - y * k
  · left; left
    exact LpSpLp_some hz hk hs (by linarith) (by nlinarith) (by nlinarith)
  by_cases c2 : y ≤ -(1 - k) ∧ x * s - y * k ≤ -(1 - k)
  · left; right
    exact LpSpLp_some hz hk' hs' (by linarith) (by nlinarith) (by nlinarith)
  by_cases c3 : -(1 - k) ≤ y ∧ x * s - y * k ≤ 1 - k
  · right; left
    exact LpSpRp_some hz hk hs (by nlinarith) (by linarith) (by linarith) (by linarith) (by nlinarith) (by nlinarith) (by nlinarith)
  · have c4 : y ≤ 1 - k ∧ -(1 - k) ≤ x * s - y * k := by
      simp only [not_and_or, not_le] at c1 c2 c3
      constructor
      · rcases c1 with h | h <;> rcases c2 with h' | h' <;> rcases c3 with h'' | h'' <;> linarith
      · rcases c1 with h | h <;> rcases c2 with h' | h' <;> rcases c3 with h'' | h'' <;> linarith
    right; right
    exact LpSpRp_some hz hk' hs' (by nlinarith) (by linarith) (by linarith) (by linarith) (by nlinarith) (by nlinarith) (by nlinarith)

/-- Turn, line, turn: the four quantities have the same sign. -/
theorem csc_all (p1 : 4 < (x + s) * (x + s) + (y - 1 - k) * (y - 1 - k)) (p2 : 4 < (x - s) * (x - s) + (y + 1 + k) * (y + 1 + k))
    (y1 : -(1 + k) ≤ y) (y2 : y ≤ 1 + k) (E1 : -(1 + k) ≤ x * s - y * k) (E2 : x * s - y * k ≤ 1 + k)
    (h : (0 < x + s ∧ 0 < x - s ∧ 0 < x * k + y * s + s ∧ 0 < x * k + y * s - s) ∨ (x + s < 0 ∧ x - s < 0 ∧ x * k + y * s + s < 0 ∧ x * k + y * s - s < 0)) :
    (Two (LpSpLp zero) x y k s phi ∨ Two (LpSpLp zero) x (-y) k (-s) (-phi)) ∨ Two (LpSpRp zero) x y k s phi ∨ Two (LpSpRp zero) x (-y) k (-s) (-phi) := by
  unfold Two
  rw [neg_neg, neg_neg]
  rcases h with ⟨x1, x2, x3, x4⟩ | ⟨x1, x2, x3, x4⟩
  · rcases csc_pos hz hk hs p1 p2 y1 y2 E1 E2 x1 x2 x3 x4 with (h | h) | (h | h) <;> tauto
  · have := csc_pos (x := -x) (y := y) (k := k) (s := -s) (phi := -phi) hz (by rw [Real.cos_neg, hk]) (by rw [Real.sin_neg, hs]) (by nlinarith) (by nlinarith) y1 y2
      (by linarith) (by linarith) (by linarith) (by linarith) (by linarith) (by linarith)
    rw [neg_neg, neg_neg] at this
    rcases this with (h | h) | (h | h) <;> tauto

end

theorem cand_csc {zero : ℝ} {z h : ℂ} {phi : ℝ} (hc : ∃ c, some c ∈ candCSC zero z h phi) : ∃ c, c ∈ allCands zero z h phi := by
  obtain ⟨c, hc⟩ := hc
  exact ⟨c, mem_all.2 ⟨_, by unfold families; exact List.mem_cons_self, hc⟩⟩

theorem cand_ccsc {zero : ℝ} {z h : ℂ} {phi : ℝ} (hc : ∃ c, some c ∈ candCCSC zero z h phi) : ∃ c, c ∈ allCands zero z h phi := by
  obtain ⟨c, hc⟩ := hc
  exact ⟨c, mem_all.2 ⟨(1 / 2 * Real.pi, candCCSC zero z h phi), by simp [families], hc⟩⟩

/-- Signs of `x ± s` and of their images, on the targets that are far and in the strip. -/
theorem same_sign {x y k s : ℝ} (hks : k ^ 2 + s ^ 2 = 1) (hk1 : -1 < k)
    (far : 16 < (x - s) * (x - s) + (y - 1 + k) * (y - 1 + k) ∨ 16 < (x + s) * (x + s) + (y + 1 - k) * (y + 1 - k))
    (y1 : -(1 + k) ≤ y) (y2 : y ≤ 1 + k) (E1 : -(1 + k) ≤ x * s - y * k) (E2 : x * s - y * k ≤ 1 + k) :
    (0 < x + s ∧ 0 < x - s ∧ 0 < x * k + y * s + s ∧ 0 < x * k + y * s - s) ∨ (x + s < 0 ∧ x - s < 0 ∧ x * k + y * s + s < 0 ∧ x * k + y * s - s < 0) := by
  have hk2 : k ≤ 1 := by nlinarith [sq_nonneg s]
  have hs2 : -1 ≤ s ∧ s ≤ 1 := abs_le.1 (abs_le_one_iff_mul_self_le_one.2 (by nlinarith [sq_nonneg k]))
  -- the difference between the abscissas
  have hd : (x - (x * k + y * s)) * (1 + k) = -s * (y - (x * s - y * k)) := by linear_combination (-x) * hks
  have hd1 : x - (x * k + y * s) ≤ 2 := by
    by_contra hc
    have hc := not_le.1 hc
    have h1 : 2 * (1 + k) < (x - (x * k + y * s)) * (1 + k) := mul_lt_mul_of_pos_right hc (by linarith)
    rw [hd] at h1
    rcases le_total 0 s with hs | hs <;> nlinarith
  have hd2 : -2 ≤ x - (x * k + y * s) := by
    by_contra hc
    have hc := not_le.1 hc
    have h1 : (x - (x * k + y * s)) * (1 + k) < -2 * (1 + k) := mul_lt_mul_of_pos_right hc (by linarith)
    rw [hd] at h1
    rcases le_total 0 s with hs | hs <;> nlinarith
  have hsq : ∀ a : ℝ, 12 < a * a → 3 < a ∨ a < -3 := by
    intro a ha
    by_contra hc
    rw [not_or, not_lt, not_lt] at hc
    nlinarith
  rcases far with far | far
  · have r1 := hsq (x - s) (by nlinarith)
    have r2 := hsq (x * k + y * s - s) (by
      have : (x * k + y * s - s) * (x * k + y * s - s) + (x * s - y * k - 1 + k) * (x * s - y * k - 1 + k) = (x - s) * (x - s) + (y - 1 + k) * (y - 1 + k) := by
        linear_combination (x * x + y * y - 2 * y) * hks
      nlinarith)
    rcases r1 with r1 | r1 <;> rcases r2 with r2 | r2
    · left; refine ⟨?_, ?_, ?_, ?_⟩ <;> linarith
    · linarith
    · linarith
    · right; refine ⟨?_, ?_, ?_, ?_⟩ <;> linarith
  · have r1 := hsq (x + s) (by nlinarith)
    have r2 := hsq (x * k + y * s + s) (by
      have : (x * k + y * s + s) * (x * k + y * s + s) + (x * s - y * k + 1 - k) * (x * s - y * k + 1 - k) = (x + s) * (x + s) + (y + 1 - k) * (y + 1 - k) := by
        linear_combination (x * x + y * y + 2 * y) * hks
      nlinarith)
    rcases r1 with r1 | r1 <;> rcases r2 with r2 | r2
    · left; refine ⟨?_, ?_, ?_, ?_⟩ <;> linarith
    · linarith
    · linarith
    · right; refine ⟨?_, ?_, ?_, ?_⟩ <;> linarith

theorem normSq_mk (z : ℂ) {x y : ℝ} (hx : z.re = x) (hy : z.im = y) : ‖z‖ * ‖z‖ = x * x + y * y := by
  rw [Complex.norm_mul_self_eq_normSq, Complex.normSq_apply, hx, hy]

/-- C88: there is a candidate for every target. -/
theorem cand_found {zero : ℝ} (hz : 0 ≤ zero) {z h : ℂ} {phi : ℝ} (hh : cis phi = h) : ∃ c, c ∈ allCands zero z h phi := by
  by_cases near : ‖z - I + I * h‖ ≤ 4 ∧ ‖z + I - I * h‖ ≤ 4
  · exact (C88_choice zero 1 z h phi).2.1 (Option.isSome_iff_exists.2 (C88_near_found hz 1 hh near.1 near.2))
  rw [not_and_or, not_le, not_le] at near
  have hn : ‖h‖ = 1 := by rw [← hh, cis_eq_exp]; exact Complex.norm_exp_ofReal_mul_I phi
  -- distances between the other centers
  have q1 : 2 < ‖z - I - I * h‖ := by
    rcases near with hf | hf
    · have := norm_add_le (z - I - I * h) (2 * I * h)
      rw [show z - I - I * h + 2 * I * h = z - I + I * h by ring, norm_mul, norm_mul, norm_I, hn] at this
      norm_num at this; linarith
    · have := norm_add_le (z - I - I * h) (2 * I)
      rw [show z - I - I * h + 2 * I = z + I - I * h by ring, norm_mul, norm_I] at this
      norm_num at this; linarith
  have q2 : 2 < ‖z + I + I * h‖ := by
    rcases near with hf | hf
    · have := norm_sub_le (z + I + I * h) (2 * I)
      rw [show z + I + I * h - 2 * I = z - I + I * h by ring, norm_mul, norm_I] at this
      norm_num at this; linarith
    · have := norm_sub_le (z + I + I * h) (2 * I * h)
      rw [show z + I + I * h - 2 * I * h = z + I - I * h by ring, norm_mul, norm_mul, norm_I, hn] at this
      norm_num at this; linarith
  obtain ⟨x, y⟩ := z
  obtain ⟨k, s⟩ := h
  have hk : Real.cos phi = k := by have := (Complex.ext_iff.1 hh).1; simpa only [cis] using this
  have hs : Real.sin phi = s := by have := (Complex.ext_iff.1 hh).2; simpa only [cis] using this
  have hk' : Real.cos (-phi) = k := by rw [Real.cos_neg, hk]
  have hs' : Real.sin (-phi) = -s := by rw [Real.sin_neg, hs]
  have hks : k ^ 2 + s ^ 2 = 1 := by rw [← hk, ← hs]; exact Real.cos_sq_add_sin_sq phi
  have far : 16 < (x - s) * (x - s) + (y - 1 + k) * (y - 1 + k) ∨ 16 < (x + s) * (x + s) + (y + 1 - k) * (y + 1 - k) := by
    rcases near with hf | hf
    · left
      rw [← normSq_mk ((⟨x, y⟩ : ℂ) - I + I * ⟨k, s⟩) (x := x - s) (y := y - 1 + k) (by simp; ring) (by simp)]
      nlinarith
    · right
      rw [← normSq_mk ((⟨x, y⟩ : ℂ) + I - I * ⟨k, s⟩) (x := x + s) (y := y + 1 - k) (by simp) (by simp)]
      nlinarith
  have p1 : 4 < (x + s) * (x + s) + (y - 1 - k) * (y - 1 - k) := by
    rw [← normSq_mk ((⟨x, y⟩ : ℂ) - I - I * ⟨k, s⟩) (x := x + s) (y := y - 1 - k) (by simp) (by simp)]
    nlinarith
  have p2 : 4 < (x - s) * (x - s) + (y + 1 + k) * (y + 1 + k) := by
    rw [← normSq_mk ((⟨x, y⟩ : ℂ) + I + I * ⟨k, s⟩) (x := x - s) (y := y + 1 + k) (by simp; ring) (by simp)]
    nlinarith
  clear near q1 q2
  -- turn, turn, line, turn
  by_cases E1 : x * s - y * k + 1 + k < 0
  · obtain ⟨c, hc⟩ := four_some 8 9 (fun l => [l.t, -(1 / 2 * Real.pi), l.p, l.q, 0]) sumAbs (Or.inl (two_LpRmSmRm hz hk hs p1.le E1))
    exact cand_ccsc ⟨c, by unfold candCCSC; simp only [List.mem_append]; tauto⟩
  by_cases E2 : 1 + k < x * s - y * k
  · obtain ⟨c, hc⟩ := four_some 8 9 (fun l => [l.t, -(1 / 2 * Real.pi), l.p, l.q, 0]) sumAbs (x := x) (y := y) (k := k) (s := s) (phi := phi)
      (Or.inr (two_LpRmSmRm hz hk' hs' (by nlinarith) (by linarith)))
    exact cand_ccsc ⟨c, by unfold candCCSC; simp only [List.mem_append]; tauto⟩
  have eb : xyb ⟨x, y⟩ ⟨k, s⟩ = ⟨x * k + y * s, x * s - y * k⟩ := rfl
  have eE : (x * k + y * s) * s - (x * s - y * k) * k = y := by linear_combination y * hks
  by_cases y1 : y + 1 + k < 0
  · obtain ⟨c, hc⟩ := four_some 10 11 (fun l => [l.q, l.p, -(1 / 2 * Real.pi), l.t, 0]) sumAbs (x := x * k + y * s) (y := x * s - y * k) (k := k) (s := s) (phi := phi)
      (Or.inl (two_LpRmSmRm hz hk hs (by
        have : (x * k + y * s + s) * (x * k + y * s + s) + (x * s - y * k - 1 - k) * (x * s - y * k - 1 - k) = (x - s) * (x - s) + (y + 1 + k) * (y + 1 + k) := by
          linear_combination (x * x + y * y + 2 * y) * hks
        linarith) (by rw [eE]; exact y1)))
    exact cand_ccsc ⟨c, by unfold candCCSC; rw [eb]; simp only [List.mem_append]; tauto⟩
  by_cases y2 : 1 + k < y
  · obtain ⟨c, hc⟩ := four_some 10 11 (fun l => [l.q, l.p, -(1 / 2 * Real.pi), l.t, 0]) sumAbs (x := x * k + y * s) (y := x * s - y * k) (k := k) (s := s) (phi := phi)
      (Or.inr (two_LpRmSmRm hz hk' hs' (by
        have : (x * k + y * s + -s) * (x * k + y * s + -s) + (-(x * s - y * k) - 1 - k) * (-(x * s - y * k) - 1 - k) = (x + s) * (x + s) + (y - 1 - k) * (y - 1 - k) := by
          linear_combination (x * x + y * y - 2 * y) * hks
        linarith) (by linarith)))
    exact cand_ccsc ⟨c, by unfold candCCSC; rw [eb]; simp only [List.mem_append]; tauto⟩
  rw [not_lt] at E1 E2 y1 y2
  by_cases k1 : k = -1
  · -- the target looks backward
    subst k1
    have hs0 : s = 0 := by nlinarith
    have hy0 : y = 0 := by linarith
    subst hs0 hy0
    have two : Two (LpRmSmLm zero) x 0 (-1) 0 phi := by
      have hx : 2 ≤ x ∨ 2 ≤ -x := by
        by_contra hc
        rw [not_or, not_le, not_le] at hc
        nlinarith
      rcases hx with hx | hx
      · exact Or.inl (LpRmSmLm_some hz hk hx)
      · right
        rw [neg_zero]
        exact LpRmSmLm_some hz hk' hx
    obtain ⟨c, hc⟩ := four_some 4 5 (fun l => [l.t, -(1 / 2 * Real.pi), l.p, l.q, 0]) sumAbs (Or.inl two)
    exact cand_ccsc ⟨c, by unfold candCCSC; simp only [List.mem_append]; tauto⟩
  · have hk1 : -1 < k := lt_of_le_of_ne (by nlinarith [sq_nonneg s]) (Ne.symm k1)
    have sg := same_sign hks hk1 far (by linarith) y2 (by linarith) E2
    rcases csc_all hz hk hs p1 p2 (by linarith) y2 (by linarith) E2 sg with h | h
    · obtain ⟨c, hc⟩ := four_some 14 15 (fun l => [l.t, l.p, l.q, 0, 0]) sumAbs h
      exact cand_csc ⟨c, by unfold candCSC; exact List.mem_append_left _ hc⟩
    · obtain ⟨c, hc⟩ := four_some 12 13 (fun l => [l.t, l.p, l.q, 0, 0]) sumAbs h
      exact cand_csc ⟨c, by unfold candCSC; exact List.mem_append_right _ hc⟩

/-- C88: a word is found for every target: the path of Reeds and Shepp and the distance are defined between any two configurations. -/
theorem C88_found {zero : ℝ} (hz : 0 ≤ zero) (rho : ℝ) {z h : ℂ} {phi : ℝ} (hh : cis phi = h) : ∃ d, rsBest zero rho z h phi = some d :=
  Option.isSome_iff_exists.1 ((C88_choice zero rho z h phi).2.2 (cand_found hz hh))

variable {E W : Type} [AddCommGroup E] [Module ℝ E]

/-- C88: between any two configurations that are not close to each other, the path of Reeds and Shepp is made of one to five paths of constant curvature, on the minimal
radius or straight, each one starting where the previous one ends; it starts at the initial configuration and ends at the final one up to the length of the segments that are
not built; its length is the distance given by `distance::ReedsShepp` up to the same error.
Missing: close configurations (see `C88_still_counterexample`); the exact end when `precision` is positive. -/
theorem C88_path_all_partial {interp : Cfg E W → Cfg E W → ℝ → Cfg E W} (hi : ∀ a b u, (interp a b u).o = lerp a.o b.o u) (wheel : ℝ → W) {zero precision rho extra : ℝ}
    (hz : 0 ≤ zero) (hp : 0 ≤ precision) (hp' : precision ≤ 1 / 10 ^ 5) (hr : 0 < rho) (he : 0 ≤ extra) {q0 q1 : Cfg E W} (h0 : q0.Unit) (h1 : q1.Unit)
    (ht : ¬Tiny rho q0 q1) :
    ∃ ks D r u, rsPath interp wheel zero precision rho extra q0 q1 = some ks ∧ rsDist zero rho extra q0 q1 = some (D + extra) ∧ Chained q0 ks r ∧ ks ≠ [] ∧ ks.length ≤ 5 ∧
      (∀ K ∈ ks, K.Coherent ∧ K.t0 = 0 ∧ (K.curvature = 0 ∨ |K.curvature| = 1 / rho)) ∧
      ‖r.pose.1 - q1.pose.1‖ ≤ 5 * precision * (rho + D) ∧ ‖r.pose.2 - q1.pose.2‖ ≤ 5 * precision ∧
      r.o = lerp q0.o q1.o u ∧ u ≤ 1 ∧ D * (1 - u) ≤ 5 * rho * precision ∧
      driven ks = D * u ∧ totalLength ks = (D + extra) * u ∧ 0 < D :=
  C88_path_partial hi wheel hp hp' hr he h0 h1 ht (cand_found hz (cis_normPhi h0 h1))

/-- C88: the steering method always returns a path and the distance is always a number; they agree up to the segments that are not built. -/
theorem C88_steer_all {interp : Cfg E W → Cfg E W → ℝ → Cfg E W} (hi : ∀ a b u, (interp a b u).o = lerp a.o b.o u) (wheel : ℝ → W) {dist : Cfg E W → Cfg E W → ℝ}
    (hd : ∀ a b, 0 ≤ dist a b) {zero precision rho : ℝ} (hz : 0 ≤ zero) (hp : 0 ≤ precision) (hp' : precision ≤ 1 / 10 ^ 5) (hr : 0 < rho) {q0 q1 : Cfg E W}
    (h0 : q0.Unit) (h1 : q1.Unit) :
    ∃ ks d, rsSteer interp wheel dist zero precision rho q0 q1 = some ks ∧ rsDistance dist zero rho q0 q1 = some d ∧ totalLength ks ≤ d ∧
      (Tiny rho q0 q1 → d = dist q0 (extraEnd q0 q1) ∧ totalLength ks = d) ∧
      (¬Tiny rho q0 q1 → ∃ D, 0 < D ∧ d = D + dist q0 (extraEnd q0 q1) ∧ D * (d - totalLength ks) ≤ 5 * rho * precision * d) :=
  C88_steer_partial hi wheel hd hp hp' hr h0 h1 (Or.inr (cand_found hz (cis_normPhi h0 h1)))

/-- The hypotheses are met, with a target far away. -/
example : ∃ q0 q1 : Cfg ℝ Unit, q0.Unit ∧ q1.Unit ∧ ¬Tiny 1 q0 q1 := by
  refine ⟨⟨0, 0, 1, 0, 0, ()⟩, ⟨100, 30, -1, 0, 1, ()⟩, by simp [Cfg.Unit], by simp [Cfg.Unit], ?_⟩
  have e1 : normXY 1 (⟨0, 0, 1, 0, 0, ()⟩ : Cfg ℝ Unit) ⟨100, 30, -1, 0, 1, ()⟩ = ⟨100, 30⟩ := by
    unfold normXY rotate; rw [Complex.ext_iff]; simp
  unfold Tiny
  rw [e1, not_lt]
  have := mul_self_nonneg (normPhi (⟨0, 0, 1, 0, 0, ()⟩ : Cfg ℝ Unit) ⟨100, 30, -1, 0, 1, ()⟩)
  norm_num at this ⊢
  linarith

end Verif.Car.RS
