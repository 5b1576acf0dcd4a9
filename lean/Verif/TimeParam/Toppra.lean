import Verif.TimeParam.Piecewise
import Verif.Path.Extracted
import Mathlib.Order.Monotone.Union
import Mathlib.Analysis.SpecialFunctions.Pow.NNReal
import Mathlib.Algebra.Order.Floor.Ring
set_option linter.unusedSectionVars false

/-!
# Time-optimal parameterization: plugin TOPPRA (C112, C113)

`pathOptimization::TOPPRA::optimize` (plugins/toppra.cc): grid points along the path, squared velocities at these points given by an external solver, integration of the time,
piecewise polynomial, parameterization of each piece.  Simplifications: real numbers; the solver is any function from the grid points to squared velocities (or a failure);
torque and velocity limits are inputs of the solver only.
-/
namespace Verif.TimeParam
open Polynomial PathV

/-! ## Grid points -/

/-- Grid points added for a piece: toppra.cc:171-176. -/
noncomputable def gridPts (p0 len d : ℝ) : List ℝ := (List.range ⌈len / d⌉₊).map fun k : ℕ => p0 + len * ((k : ℝ) + 1) / (⌈len / d⌉₊ : ℝ)

/-- One turn of the loop over the pieces: toppra.cc:168-178; the grid points and the ranks of the ends of the pieces. -/
noncomputable def gridStep (d : ℝ) (g : List ℝ × List ℕ) (len : ℝ) : List ℝ × List ℕ :=
  let params := g.1 ++ gridPts (g.1.getLastD 0) len d
  (params, g.2 ++ [params.length - 1])

/-- toppra.cc:158-178. -/
noncomputable def grid (d : ℝ) (lens : List ℝ) : List ℝ × List ℕ := lens.foldl (gridStep d) ([0], [0])

/-! ## The law -/

/-- Forward integration of time: toppra.cc:219-227. -/
noncomputable def tTime (s sd : ℕ → ℝ) : ℕ → ℝ
  | 0 => 0
  | i + 1 => tTime s sd i + (s (i + 1) - s i) / ((sd i + sd (i + 1)) * (1 / 2))

/-- Coefficients of the polynomial between two grid points: toppra.cc:234-255. -/
noncomputable def tCoeffs (s sd : ℕ → ℝ) (t : ℕ → ℝ) (i : ℕ) : List ℝ :=
  let inv := 1 / (t (i + 1) - t i)
  let inv2 := inv * inv
  let inv3 := inv2 * inv
  let p := t i
  let p2 := p * p
  let p3 := p2 * p
  let ds := s (i + 1) - s i
  let b := (2 * sd i + sd (i + 1)) * inv
  let c := (sd i + sd (i + 1)) * inv2
  [2 * p3 * ds * inv3 + 3 * p2 * ds * inv2 - p3 * c - p2 * b - p * sd i + s i,
   -6 * p2 * ds * inv3 - 6 * p * ds * inv2 + 3 * p2 * c + 2 * p * b + sd i,
   6 * p * ds * inv3 + 3 * ds * inv2 - 3 * p * c - b,
   -2 * ds * inv3 + c]

/-- `global`: toppra.cc:258, with `n` intervals. -/
noncomputable def tLaw (n : ℕ) (s sd : ℕ → ℝ) : PP ℝ :=
  ⟨(List.range (n + 1)).map (tTime s sd), (List.range n).map (tCoeffs s sd (tTime s sd)), false⟩

/-- Value of the law; outside of the range of the breakpoints the code throws (C52), the model returns 0. -/
noncomputable def lawVal (p : PP ℝ) (x : ℝ) : ℝ := match ppVal p x with
  | .ok (some v) => v
  | _ => 0

/-! ## Specification of the law -/

/-- Conditions on the grid points and on the velocities: increasing points, velocities that are not negative and never null twice in a row (`assert (sd_avg > 0)`). -/
structure Profile (n : ℕ) (s sd : ℕ → ℝ) : Prop where
  inc : ∀ i < n, s i < s (i + 1)
  nonneg : ∀ i ≤ n, 0 ≤ sd i
  moves : ∀ i < n, 0 < sd i + sd (i + 1)

theorem tTime_lt {n : ℕ} {s sd : ℕ → ℝ} (h : Profile n s sd) (i : ℕ) (hi : i < n) : tTime s sd i < tTime s sd (i + 1) := by
  have h1 := h.inc i hi
  have h2 := h.moves i hi
  show tTime s sd i < tTime s sd i + (s (i + 1) - s i) / ((sd i + sd (i + 1)) * (1 / 2))
  have : 0 < (s (i + 1) - s i) / ((sd i + sd (i + 1)) * (1 / 2)) := by
    apply div_pos <;> linarith
  linarith

theorem tTime_mono {n : ℕ} {s sd : ℕ → ℝ} (h : Profile n s sd) {i j : ℕ} (hij : i < j) (hj : j ≤ n) : tTime s sd i < tTime s sd j := by
  induction j with
  | zero => omega
  | succ j ih =>
    rcases Nat.lt_succ_iff_lt_or_eq.1 hij with h1 | h1
    · exact (ih h1 (by omega)).trans (tTime_lt h j (by omega))
    · subst h1; exact tTime_lt h i (by omega)

theorem tTime_le {n : ℕ} {s sd : ℕ → ℝ} (h : Profile n s sd) {i j : ℕ} (hij : i ≤ j) (hj : j ≤ n) : tTime s sd i ≤ tTime s sd j := by
  rcases Nat.lt_or_eq_of_le hij with h1 | h1
  · exact (tTime_mono h h1 hj).le
  · rw [h1]

theorem tLaw_ok {n : ℕ} (hn : 0 < n) {s sd : ℕ → ℝ} (h : Profile n s sd) : PPOk (tLaw n s sd) 4 := by
  refine ⟨?_, ?_, ?_, ?_⟩
  · simp only [tLaw]
    rw [List.pairwise_iff_getElem]
    intro i j hi hj hij
    simp only [List.length_map, List.length_range] at hi hj
    simp only [List.getElem_map, List.getElem_range]
    exact tTime_mono h hij (by omega)
  · simp [tLaw]
  · simp only [tLaw, ne_eq, List.map_eq_nil_iff, List.range_eq_nil]
    omega
  · intro a ha
    simp only [tLaw, List.mem_map] at ha
    obtain ⟨i, _, rfl⟩ := ha
    rfl

/-- The polynomial of an interval is the motion at constant acceleration between the two velocities. -/
theorem tCoeffs_eval {n : ℕ} {s sd : ℕ → ℝ} (h : Profile n s sd) (i : ℕ) (hi : i < n) (x : ℝ) :
    (toPoly (tCoeffs s sd (tTime s sd) i)).eval x = s i + sd i * (x - tTime s sd i) +
      (sd (i + 1) - sd i) / (2 * (tTime s sd (i + 1) - tTime s sd i)) * (x - tTime s sd i) ^ 2 ∧
    (derivative (toPoly (tCoeffs s sd (tTime s sd) i))).eval x = sd i + (sd (i + 1) - sd i) / (tTime s sd (i + 1) - tTime s sd i) * (x - tTime s sd i) := by
  have hlt := tTime_lt h i hi
  have hm := h.moves i hi
  have hH : 0 < tTime s sd (i + 1) - tTime s sd i := sub_pos.2 hlt
  have hds : s (i + 1) - s i = (tTime s sd (i + 1) - tTime s sd i) * (sd i + sd (i + 1)) / 2 := by
    have : tTime s sd (i + 1) - tTime s sd i = (s (i + 1) - s i) / ((sd i + sd (i + 1)) * (1 / 2)) := by
      show tTime s sd i + _ - _ = _
      ring
    rw [this]
    field_simp
  simp only [tCoeffs, hds]
  generalize tTime s sd (i + 1) - tTime s sd i = H at *
  generalize tTime s sd i = p at *
  have hH' : H ≠ 0 := hH.ne'
  simp only [toPoly]
  constructor
  · simp only [eval_add, eval_mul, eval_C, eval_X, eval_zero]
    field_simp
    ring
  · simp only [derivative_add, derivative_mul, derivative_C, derivative_X, derivative_zero, eval_add, eval_mul, eval_C, eval_X, eval_zero, eval_one]
    field_simp
    ring

theorem breaks_get {n : ℕ} (s sd : ℕ → ℝ) (i : ℕ) (hi : i ≤ n) : (tLaw n s sd).breaks[i]? = some (tTime s sd i) := by
  simp only [tLaw, List.getElem?_map]
  rw [List.getElem?_eq_getElem (by simp; omega)]
  simp

theorem cols_get {n : ℕ} (s sd : ℕ → ℝ) (i : ℕ) (hi : i < n) : (tLaw n s sd).cols[i]? = some (tCoeffs s sd (tTime s sd) i) := by
  simp only [tLaw, List.getElem?_map]
  rw [List.getElem?_eq_getElem (by simpa using hi)]
  simp

/-- The law and its derivative between two grid points. -/
theorem law_piece {n : ℕ} {s sd : ℕ → ℝ} (h : Profile n s sd) (i : ℕ) (hi : i < n) (x : ℝ) (h1 : tTime s sd i ≤ x) (h2 : x ≤ tTime s sd (i + 1)) :
    ppVal (tLaw n s sd) x = .ok (some (s i + sd i * (x - tTime s sd i) + (sd (i + 1) - sd i) / (2 * (tTime s sd (i + 1) - tTime s sd i)) * (x - tTime s sd i) ^ 2)) ∧
    ppJac (tLaw n s sd) 4 x 1 = .ok (some (sd i + (sd (i + 1) - sd i) / (tTime s sd (i + 1) - tTime s sd i) * (x - tTime s sd i))) := by
  have hn : 0 < n := by omega
  have hf : (tLaw n s sd).breaks.head? = some (tTime s sd 0) := by
    rw [List.head?_eq_getElem?]; exact breaks_get s sd 0 (by omega)
  have hl : (tLaw n s sd).breaks.getLast? = some (tTime s sd n) := by
    rw [List.getLast?_eq_getElem?, show (tLaw n s sd).breaks.length - 1 = n by simp [tLaw]]
    exact breaks_get s sd n le_rfl
  obtain ⟨j, a, lo, hc, ha, hlo, hv, hd⟩ := C52_value (tLaw n s sd) 4 (tLaw_ok hn h) (by omega) x _ _ hf hl ((tTime_le h (by omega) (by omega)).trans h1)
    (h2.trans (tTime_le h (by omega) le_rfl))
  obtain ⟨lo', hi', e1, e2, e3, e4⟩ := hc
  have hjn : j < n := by
    have := (List.getElem?_eq_some_iff.1 ha).1
    simpa [tLaw] using this
  rw [cols_get s sd j hjn] at ha
  cases ha
  rw [breaks_get s sd j (by omega)] at e1
  cases e1
  rw [breaks_get s sd (j + 1) (by omega)] at e2
  cases e2
  have hd1 := hd 1
  simp only [Function.iterate_one] at hd1
  have hfalse : (tLaw n s sd).startAtZero = false := rfl
  rw [hfalse] at hv hd1
  simp only [Bool.false_eq_true, if_false] at hv hd1
  rw [(tCoeffs_eval h j hjn x).1] at hv
  rw [(tCoeffs_eval h j hjn x).2] at hd1
  have hlen : (tLaw n s sd).breaks.length = n + 1 := by simp [tLaw]
  rcases Nat.lt_trichotomy j i with hji | hji | hji
  · -- impossible unless `x` is the last breakpoint
    exfalso
    have h3 := tTime_le h (show j + 1 ≤ i by omega) (by omega)
    rcases e4 with e4 | ⟨e4, e5⟩
    · linarith
    · omega
  · subst hji
    exact ⟨hv, hd1⟩
  · have h3 := tTime_le h (show i + 1 ≤ j by omega) (by omega)
    have hx : x = tTime s sd j := le_antisymm (h2.trans h3) e3
    have hij : j = i + 1 := by
      by_contra hne
      have h4 := tTime_mono h (show i + 1 < j by omega) (by omega)
      linarith
    have hxe : x = tTime s sd (i + 1) := by rw [hx, hij]
    have hH : tTime s sd (i + 1) - tTime s sd i ≠ 0 := (sub_pos.2 (tTime_lt h i hi)).ne'
    have hds : s (i + 1) - s i = (tTime s sd (i + 1) - tTime s sd i) * (sd i + sd (i + 1)) / 2 := by
      have hm := h.moves i hi
      have : tTime s sd (i + 1) - tTime s sd i = (s (i + 1) - s i) / ((sd i + sd (i + 1)) * (1 / 2)) := by
        show tTime s sd i + _ - _ = _
        ring
      rw [this]
      field_simp
    rw [hv, hd1]
    have z : x - tTime s sd j = 0 := by rw [hx, sub_self]
    rw [z, hxe, hij]
    constructor
    · congr 2
      have : (sd (i + 1) - sd i) / (2 * (tTime s sd (i + 1) - tTime s sd i)) * (tTime s sd (i + 1) - tTime s sd i) ^ 2 =
          (sd (i + 1) - sd i) * (tTime s sd (i + 1) - tTime s sd i) / 2 := by field_simp
      rw [this]
      have e : s (i + 1) = s i + (tTime s sd (i + 1) - tTime s sd i) * (sd i + sd (i + 1)) / 2 := by linarith
      rw [e]
      ring
    · congr 2
      rw [div_mul_cancel₀ _ hH]
      ring

theorem lawVal_piece {n : ℕ} {s sd : ℕ → ℝ} (h : Profile n s sd) (i : ℕ) (hi : i < n) (x : ℝ) (h1 : tTime s sd i ≤ x) (h2 : x ≤ tTime s sd (i + 1)) :
    lawVal (tLaw n s sd) x = s i + sd i * (x - tTime s sd i) + (sd (i + 1) - sd i) / (2 * (tTime s sd (i + 1) - tTime s sd i)) * (x - tTime s sd i) ^ 2 := by
  unfold lawVal
  rw [(law_piece h i hi x h1 h2).1]

/-- C112: the law goes through the grid points, with the velocities that were given, at the times computed. -/
theorem C112_knots {n : ℕ} (hn : 0 < n) {s sd : ℕ → ℝ} (h : Profile n s sd) (i : ℕ) (hi : i ≤ n) :
    ppVal (tLaw n s sd) (tTime s sd i) = .ok (some (s i)) ∧ ppJac (tLaw n s sd) 4 (tTime s sd i) 1 = .ok (some (sd i)) := by
  rcases Nat.lt_or_eq_of_le hi with hi' | rfl
  · obtain ⟨a, b⟩ := law_piece h i hi' (tTime s sd i) le_rfl (tTime_lt h i hi').le
    rw [a, b]
    simp
  · obtain ⟨j, rfl⟩ : ∃ j, i = j + 1 := ⟨i - 1, by omega⟩
    obtain ⟨a, b⟩ := law_piece h j (by omega) (tTime s sd (j + 1)) (tTime_lt h j (by omega)).le le_rfl
    have hH : tTime s sd (j + 1) - tTime s sd j ≠ 0 := (sub_pos.2 (tTime_lt h j (by omega))).ne'
    have hm := h.moves j (by omega)
    have e : s (j + 1) = s j + (tTime s sd (j + 1) - tTime s sd j) * (sd j + sd (j + 1)) / 2 := by
      have : tTime s sd (j + 1) - tTime s sd j = (s (j + 1) - s j) / ((sd j + sd (j + 1)) * (1 / 2)) := by
        show tTime s sd j + _ - _ = _
        ring
      rw [this]
      field_simp
      ring
    rw [a, b, div_mul_cancel₀ _ hH]
    constructor
    · congr 2
      have : (sd (j + 1) - sd j) / (2 * (tTime s sd (j + 1) - tTime s sd j)) * (tTime s sd (j + 1) - tTime s sd j) ^ 2 =
          (sd (j + 1) - sd j) * (tTime s sd (j + 1) - tTime s sd j) / 2 := by field_simp
      rw [this, e]
      ring
    · congr 2
      ring

theorem lawVal_knot {n : ℕ} (hn : 0 < n) {s sd : ℕ → ℝ} (h : Profile n s sd) (i : ℕ) (hi : i ≤ n) : lawVal (tLaw n s sd) (tTime s sd i) = s i := by
  unfold lawVal
  rw [(C112_knots hn h i hi).1]

theorem find_piece {n : ℕ} {s sd : ℕ → ℝ} (x : ℝ) (h1 : 0 ≤ x) (h2 : x ≤ tTime s sd n) (hn : 0 < n) : ∃ i < n, tTime s sd i ≤ x ∧ x ≤ tTime s sd (i + 1) := by
  induction n with
  | zero => omega
  | succ n ih =>
    by_cases hx : tTime s sd n ≤ x
    · exact ⟨n, by omega, hx, h2⟩
    · rcases Nat.eq_zero_or_pos n with rfl | hn'
      · exact absurd h1 hx
      · obtain ⟨i, hi, a, b⟩ := ih (not_le.1 hx).le hn'
        exact ⟨i, by omega, a, b⟩

/-- C112: at all times of the interval, the law is defined, its velocity is between those of the grid points around, and the square of its velocity is the linear
interpolation, along the path, of the squares of the velocities at these grid points (what the solver assumes between grid points). -/
theorem C112_velocity {n : ℕ} (hn : 0 < n) {s sd : ℕ → ℝ} (h : Profile n s sd) (x : ℝ) (h1 : 0 ≤ x) (h2 : x ≤ tTime s sd n) :
    ∃ i < n, ∃ v w, ppVal (tLaw n s sd) x = .ok (some v) ∧ ppJac (tLaw n s sd) 4 x 1 = .ok (some w) ∧ tTime s sd i ≤ x ∧ x ≤ tTime s sd (i + 1) ∧
      min (sd i) (sd (i + 1)) ≤ w ∧ w ≤ max (sd i) (sd (i + 1)) ∧
      w ^ 2 = sd i ^ 2 + (v - s i) / (s (i + 1) - s i) * (sd (i + 1) ^ 2 - sd i ^ 2) := by
  obtain ⟨i, hi, a, b⟩ := find_piece x h1 h2 hn
  obtain ⟨e1, e2⟩ := law_piece h i hi x a b
  refine ⟨i, hi, _, _, e1, e2, a, b, ?_⟩
  have hH : 0 < tTime s sd (i + 1) - tTime s sd i := sub_pos.2 (tTime_lt h i hi)
  have hds : s (i + 1) - s i = (tTime s sd (i + 1) - tTime s sd i) * (sd i + sd (i + 1)) / 2 := by
    have hm := h.moves i hi
    have : tTime s sd (i + 1) - tTime s sd i = (s (i + 1) - s i) / ((sd i + sd (i + 1)) * (1 / 2)) := by
      show tTime s sd i + _ - _ = _
      ring
    rw [this]
    field_simp
  rw [hds]
  have hm := h.moves i hi
  generalize hHe : tTime s sd (i + 1) - tTime s sd i = H at *
  have hu0 : 0 ≤ x - tTime s sd i := by linarith
  have hu1 : x - tTime s sd i ≤ H := by linarith
  generalize x - tTime s sd i = u at *
  have key : sd i + (sd (i + 1) - sd i) / H * u = (1 - u / H) * sd i + u / H * sd (i + 1) := by field_simp; ring
  have r0 : 0 ≤ u / H := div_nonneg hu0 hH.le
  have r1 : u / H ≤ 1 := (div_le_one hH).2 hu1
  refine ⟨?_, ?_, ?_⟩
  · rw [key]
    have c1 := mul_le_mul_of_nonneg_left (min_le_left (sd i) (sd (i + 1))) (sub_nonneg.2 r1)
    have c2 := mul_le_mul_of_nonneg_left (min_le_right (sd i) (sd (i + 1))) r0
    linarith
  · rw [key]
    have c1 := mul_le_mul_of_nonneg_left (le_max_left (sd i) (sd (i + 1))) (sub_nonneg.2 r1)
    have c2 := mul_le_mul_of_nonneg_left (le_max_right (sd i) (sd (i + 1))) r0
    linarith
  · have hm' : sd i + sd (i + 1) ≠ 0 := hm.ne'
    have hH' : H ≠ 0 := hH.ne'
    field_simp
    ring

theorem piece_strict {n : ℕ} {s sd : ℕ → ℝ} (h : Profile n s sd) (i : ℕ) (hi : i < n) : StrictMonoOn (lawVal (tLaw n s sd)) (Set.Icc (tTime s sd i) (tTime s sd (i + 1))) := by
  intro x hx y hy hxy
  rw [lawVal_piece h i hi x hx.1 hx.2, lawVal_piece h i hi y hy.1 hy.2]
  have hH : 0 < tTime s sd (i + 1) - tTime s sd i := sub_pos.2 (tTime_lt h i hi)
  have hm := h.moves i hi
  have n1 := h.nonneg i (by omega)
  have n2 := h.nonneg (i + 1) (by omega)
  have hx0 : 0 ≤ x - tTime s sd i := by linarith [hx.1]
  have hy1 : y - tTime s sd i ≤ tTime s sd (i + 1) - tTime s sd i := by linarith [hy.2]
  have hxy' : x - tTime s sd i < y - tTime s sd i := by linarith
  generalize tTime s sd (i + 1) - tTime s sd i = H at *
  generalize x - tTime s sd i = u at *
  generalize y - tTime s sd i = w at *
  have e : s i + sd i * w + (sd (i + 1) - sd i) / (2 * H) * w ^ 2 - (s i + sd i * u + (sd (i + 1) - sd i) / (2 * H) * u ^ 2) =
      (w - u) * ((1 - (u + w) / (2 * H)) * sd i + (u + w) / (2 * H) * sd (i + 1)) := by field_simp; ring
  have r0 : 0 < (u + w) / (2 * H) := div_pos (by linarith) (by linarith)
  have r1 : (u + w) / (2 * H) < 1 := (div_lt_one (by linarith)).2 (by linarith)
  have : 0 < (1 - (u + w) / (2 * H)) * sd i + (u + w) / (2 * H) * sd (i + 1) := by
    rcases lt_or_eq_of_le n1 with hp | hp
    · exact add_pos_of_pos_of_nonneg (mul_pos (sub_pos.2 r1) hp) (mul_nonneg r0.le n2)
    · have : 0 < sd (i + 1) := by linarith
      exact add_pos_of_nonneg_of_pos (mul_nonneg (sub_pos.2 r1).le n1) (mul_pos r0 this)
  have := mul_pos (sub_pos.2 hxy') this
  linarith

theorem law_strict {n : ℕ} {s sd : ℕ → ℝ} (h : Profile n s sd) (m : ℕ) (hm : m ≤ n) : StrictMonoOn (lawVal (tLaw n s sd)) (Set.Icc 0 (tTime s sd m)) := by
  induction m with
  | zero =>
    intro x hx y hy hxy
    have h1 : y ≤ 0 := hy.2
    linarith [hx.1]
  | succ m ih =>
    have h0 : (0 : ℝ) ≤ tTime s sd m := tTime_le h (Nat.zero_le m) (by omega)
    have h1 := (tTime_lt h m (by omega)).le
    have := StrictMonoOn.union (c := tTime s sd m) (ih (by omega)) (piece_strict h m (by omega)) (isGreatest_Icc h0) (isLeast_Icc h1)
    rwa [Set.Icc_union_Icc_eq_Icc h0 h1] at this

/-- C112: the law is strictly increasing, from 0 to the last grid point, and its velocity never exceeds a bound of the velocities at the grid points (it is thus continuous). -/
theorem C112_law {n : ℕ} (hn : 0 < n) {s sd : ℕ → ℝ} (h : Profile n s sd) :
    StrictMonoOn (lawVal (tLaw n s sd)) (Set.Icc 0 (tTime s sd n)) ∧ lawVal (tLaw n s sd) 0 = s 0 ∧ lawVal (tLaw n s sd) (tTime s sd n) = s n ∧
    ∀ V, (∀ i ≤ n, sd i ≤ V) → ∀ x y, 0 ≤ x → x ≤ y → y ≤ tTime s sd n → lawVal (tLaw n s sd) y - lawVal (tLaw n s sd) x ≤ V * (y - x) := by
  refine ⟨law_strict h n le_rfl, lawVal_knot hn h 0 (by omega), lawVal_knot hn h n le_rfl, ?_⟩
  intro V hV
  have piece : ∀ i, i < n → MonotoneOn (fun x => V * x - lawVal (tLaw n s sd) x) (Set.Icc (tTime s sd i) (tTime s sd (i + 1))) := by
    intro i hi x hx y hy hxy
    simp only
    rw [lawVal_piece h i hi x hx.1 hx.2, lawVal_piece h i hi y hy.1 hy.2]
    have hH : 0 < tTime s sd (i + 1) - tTime s sd i := sub_pos.2 (tTime_lt h i hi)
    have n1 := hV i (by omega)
    have n2 := hV (i + 1) (by omega)
    have hx0 : 0 ≤ x - tTime s sd i := by linarith [hx.1]
    have hy1 : y - tTime s sd i ≤ tTime s sd (i + 1) - tTime s sd i := by linarith [hy.2]
    have hxy' : x - tTime s sd i ≤ y - tTime s sd i := by linarith
    have ex : V * x = V * (x - tTime s sd i) + V * tTime s sd i := by ring
    have ey : V * y = V * (y - tTime s sd i) + V * tTime s sd i := by ring
    rw [ex, ey]
    generalize tTime s sd (i + 1) - tTime s sd i = H at *
    generalize x - tTime s sd i = u at *
    generalize y - tTime s sd i = w at *
    have e : s i + sd i * w + (sd (i + 1) - sd i) / (2 * H) * w ^ 2 - (s i + sd i * u + (sd (i + 1) - sd i) / (2 * H) * u ^ 2) =
        (w - u) * ((1 - (u + w) / (2 * H)) * sd i + (u + w) / (2 * H) * sd (i + 1)) := by field_simp; ring
    have r0 : 0 ≤ (u + w) / (2 * H) := div_nonneg (by linarith) (by linarith)
    have r1 : (u + w) / (2 * H) ≤ 1 := (div_le_one (by linarith)).2 (by linarith)
    have c1 := mul_le_mul_of_nonneg_left n1 (sub_nonneg.2 r1)
    have c2 := mul_le_mul_of_nonneg_left n2 r0
    have c3 : (1 - (u + w) / (2 * H)) * sd i + (u + w) / (2 * H) * sd (i + 1) ≤ V := by linarith
    have := mul_le_mul_of_nonneg_left c3 (sub_nonneg.2 hxy')
    linarith
  have all : ∀ m, m ≤ n → MonotoneOn (fun x => V * x - lawVal (tLaw n s sd) x) (Set.Icc 0 (tTime s sd m)) := by
    intro m
    induction m with
    | zero =>
      intro _ x hx y hy hxy
      have h1 : y ≤ 0 := hy.2
      have : x = y := le_antisymm hxy (h1.trans hx.1)
      rw [this]
    | succ m ih =>
      intro hm
      have h0 : (0 : ℝ) ≤ tTime s sd m := tTime_le h (Nat.zero_le m) (by omega)
      have h1 := (tTime_lt h m (by omega)).le
      have := MonotoneOn.union_right (c := tTime s sd m) (ih (by omega)) (piece m (by omega)) (isGreatest_Icc h0) (isLeast_Icc h1)
      rwa [Set.Icc_union_Icc_eq_Icc h0 h1] at this
  intro x y hx hxy hy
  have := all n le_rfl ⟨hx, hxy.trans hy⟩ ⟨hx.trans hxy, hy⟩ hxy
  simp only at this
  linarith

/-- Hypotheses of the theorems on the law: four grid points, the velocity vanishing at both ends. -/
example : Profile 3 (fun i => (i : ℝ)) (fun i => if i = 1 ∨ i = 2 then 1 else 0) := by
  refine ⟨fun i _ => by push_cast; linarith, fun i _ => by split <;> norm_num, ?_⟩
  intro i hi
  have : i = 0 ∨ i = 1 ∨ i = 2 := by omega
  rcases this with rfl | rfl | rfl <;> norm_num

/-! ## Specification of the grid -/

/-- The grid points `P` and the ranks `I` of the ends of the pieces, for pieces of lengths `lens` and a step `d`. -/
structure GridOk (d : ℝ) (lens : List ℝ) (P : List ℝ) (I : List ℕ) : Prop where
  inc : P.Pairwise (· < ·)
  first : P.head? = some 0
  last : P.getLast? = some lens.sum
  step : ∀ i x y, P[i]? = some x → P[i + 1]? = some y → y - x ≤ d
  count : I.length = lens.length + 1
  ends : ∀ i ≤ lens.length, ∃ k, I[i]? = some k ∧ P[k]? = some (lens.take i).sum
  lastId : I.getLast? = some (P.length - 1)
  sorted : I.Pairwise (· ≤ ·)

theorem gridPts_spec (p0 len d : ℝ) (hd : 0 < d) (hl : 0 ≤ len) :
    (gridPts p0 len d).Pairwise (· < ·) ∧ (∀ x ∈ gridPts p0 len d, p0 < x) ∧ (gridPts p0 len d).getLastD p0 = p0 + len ∧
    (∀ i x y, (p0 :: gridPts p0 len d)[i]? = some x → (p0 :: gridPts p0 len d)[i + 1]? = some y → y - x ≤ d) := by
  rcases eq_or_lt_of_le hl with h0 | h0
  · subst h0
    have : gridPts p0 0 d = [] := by simp [gridPts]
    rw [this]
    refine ⟨List.Pairwise.nil, by simp, by simp, ?_⟩
    intro i x y _ h2
    simp at h2
  · have hpos : 0 < ⌈len / d⌉₊ := Nat.ceil_pos.2 (div_pos h0 hd)
    have hn : (0 : ℝ) < (⌈len / d⌉₊ : ℝ) := by exact_mod_cast hpos
    have hst : len / (⌈len / d⌉₊ : ℝ) ≤ d := by
      rw [div_le_iff₀ hn]
      have := Nat.le_ceil (len / d)
      rw [div_le_iff₀ hd] at this
      linarith
    have get : ∀ i y, (gridPts p0 len d)[i]? = some y → i < ⌈len / d⌉₊ ∧ y = p0 + len * ((i : ℝ) + 1) / (⌈len / d⌉₊ : ℝ) := by
      intro i y hy
      unfold gridPts at hy
      rw [List.getElem?_map] at hy
      obtain ⟨hlt, _⟩ := List.getElem?_eq_some_iff.1 (show ((List.range ⌈len / d⌉₊).map fun k : ℕ => p0 + len * ((k : ℝ) + 1) / (⌈len / d⌉₊ : ℝ))[i]? = some y by
        rw [List.getElem?_map]; exact hy)
      simp only [List.length_map, List.length_range] at hlt
      rw [List.getElem?_range hlt] at hy
      exact ⟨hlt, (Option.some.inj hy).symm⟩
    generalize hN : ⌈len / d⌉₊ = N at *
    refine ⟨?_, ?_, ?_, ?_⟩
    · rw [List.pairwise_iff_getElem]
      intro i j hi hj hij
      obtain ⟨_, e1⟩ := get i _ (List.getElem?_eq_getElem hi)
      obtain ⟨_, e2⟩ := get j _ (List.getElem?_eq_getElem hj)
      rw [e1, e2]
      have : (i : ℝ) < (j : ℝ) := by exact_mod_cast hij
      have := (div_lt_div_iff_of_pos_right hn).2 (mul_lt_mul_of_pos_left (by linarith : (i : ℝ) + 1 < (j : ℝ) + 1) h0)
      linarith
    · intro x hx
      obtain ⟨i, hi⟩ := List.mem_iff_getElem?.1 hx
      obtain ⟨_, e⟩ := get i x hi
      rw [e]
      have : 0 < len * ((i : ℝ) + 1) / (N : ℝ) := by positivity
      linarith
    · have hlen : (gridPts p0 len d).length = N := by simp [gridPts, hN]
      have hne : gridPts p0 len d ≠ [] := by
        intro h
        rw [h] at hlen
        simp at hlen
        omega
      have hl2 : (gridPts p0 len d).getLast? = some ((gridPts p0 len d).getLast hne) := List.getLast?_eq_some_getLast hne
      have h3 := hl2
      rw [List.getLast?_eq_getElem?, hlen] at h3
      obtain ⟨_, e⟩ := get _ _ h3
      rw [List.getLastD_eq_getLast?, hl2, Option.getD_some, e]
      have : ((N - 1 : ℕ) : ℝ) + 1 = N := by
        rw [Nat.cast_sub hpos]; simp
      rw [this, mul_div_cancel_right₀ _ hn.ne']
    · intro i x y hx hy
      rw [List.getElem?_cons_succ] at hy
      obtain ⟨_, e⟩ := get i y hy
      have hx' : x = p0 + len * (i : ℝ) / (N : ℝ) := by
        cases i with
        | zero => simp at hx; simp [hx]
        | succ i =>
          rw [List.getElem?_cons_succ] at hx
          obtain ⟨_, e⟩ := get i x hx
          rw [e]
          push_cast
          ring
      rw [e, hx']
      have : p0 + len * ((i : ℝ) + 1) / (N : ℝ) - (p0 + len * (i : ℝ) / (N : ℝ)) = len / N := by field_simp; ring
      rw [this]
      exact hst

theorem gridOk_step {d : ℝ} (hd : 0 < d) {lens : List ℝ} {P : List ℝ} {I : List ℕ} (h : GridOk d lens P I) (len : ℝ) (hl : 0 ≤ len) :
    GridOk d (lens ++ [len]) (gridStep d (P, I) len).1 (gridStep d (P, I) len).2 := by
  have hlast : P.getLastD 0 = lens.sum := by rw [List.getLastD_eq_getLast?, h.last]; rfl
  obtain ⟨g1, g2, g3, g4⟩ := gridPts_spec lens.sum len d hd hl
  have hPne : P ≠ [] := by
    intro e
    have := h.first
    rw [e] at this
    simp at this
  have hPpos : 0 < P.length := List.length_pos_of_ne_nil hPne
  simp only [gridStep, hlast]
  refine ⟨?_, ?_, ?_, ?_, ?_, ?_, ?_, ?_⟩
  · rw [List.pairwise_append]
    refine ⟨h.inc, g1, ?_⟩
    intro a ha b hb
    have hle : a ≤ lens.sum := by
      obtain ⟨i, hi, e⟩ := List.getElem_of_mem ha
      have hL := h.last
      rw [List.getLast?_eq_getElem?] at hL
      obtain ⟨hlt, e2⟩ := List.getElem?_eq_some_iff.1 hL
      rcases Nat.lt_or_eq_of_le (show i ≤ P.length - 1 by omega) with hlt' | heq
      · have := (List.pairwise_iff_getElem.1 h.inc) i (P.length - 1) hi hlt hlt'
        rw [e, e2] at this
        exact this.le
      · subst heq
        rw [← e, e2]
    exact lt_of_le_of_lt hle (g2 b hb)
  · rw [List.head?_append, h.first]; rfl
  · have g3' := g3
    rw [List.getLastD_eq_getLast?] at g3'
    rw [List.getLast?_append, h.last, List.sum_append, List.sum_singleton]
    cases hc : (gridPts lens.sum len d).getLast? with
    | none => rw [hc] at g3'; simp only [Option.getD_none] at g3'; simp only [Option.none_or]; rw [← g3']
    | some v => rw [hc] at g3'; simp only [Option.getD_some] at g3'; simp only [Option.some_or]; rw [g3']
  · intro i x y hx hy
    rcases Nat.lt_or_ge (i + 1) P.length with hi | hi
    · rw [List.getElem?_append_left (by omega)] at hx
      rw [List.getElem?_append_left hi] at hy
      exact h.step i x y hx hy
    · rw [List.getElem?_append_right hi] at hy
      refine g4 (i + 1 - P.length) x y ?_ (by rw [List.getElem?_cons_succ]; exact hy)
      rcases Nat.lt_or_eq_of_le hi with hi' | hi'
      · rw [List.getElem?_append_right (by omega)] at hx
        rw [show i + 1 - P.length = (i - P.length) + 1 by omega, List.getElem?_cons_succ]
        exact hx
      · rw [List.getElem?_append_left (by omega)] at hx
        have hL := h.last
        rw [List.getLast?_eq_getElem?, show P.length - 1 = i by omega, hx] at hL
        rw [show i + 1 - P.length = 0 by omega, List.getElem?_cons_zero, ← hL]
  · simp [h.count]
  · intro i hi
    rw [List.length_append, List.length_singleton] at hi
    rcases Nat.lt_or_eq_of_le hi with hi' | hi'
    · obtain ⟨k, hk1, hk2⟩ := h.ends i (by omega)
      refine ⟨k, ?_, ?_⟩
      · rw [List.getElem?_append_left (by rw [h.count]; omega)]; exact hk1
      · rw [List.getElem?_append_left (List.getElem?_eq_some_iff.1 hk2).1, hk2, List.take_append_of_le_length (by omega)]
    · refine ⟨(P ++ gridPts lens.sum len d).length - 1, ?_, ?_⟩
      · rw [List.getElem?_append_right (by rw [h.count]; omega), show i - I.length = 0 by rw [h.count]; omega]; rfl
      · rw [← List.getLast?_eq_getElem?, List.take_of_length_le (by simp; omega)]
        have g3' := g3
        rw [List.getLastD_eq_getLast?] at g3'
        rw [List.getLast?_append, h.last, List.sum_append, List.sum_singleton]
        cases hc : (gridPts lens.sum len d).getLast? with
        | none => rw [hc] at g3'; simp only [Option.getD_none] at g3'; simp only [Option.none_or]; rw [← g3']
        | some v => rw [hc] at g3'; simp only [Option.getD_some] at g3'; simp only [Option.some_or]; rw [g3']
  · simp
  · rw [List.pairwise_append]
    refine ⟨h.sorted, List.pairwise_singleton _ _, ?_⟩
    intro a ha b hb
    simp only [List.mem_singleton] at hb
    subst hb
    have hle : a ≤ P.length - 1 := by
      obtain ⟨i, hi, e⟩ := List.getElem_of_mem ha
      have hL := h.lastId
      rw [List.getLast?_eq_getElem?] at hL
      obtain ⟨hlt, e2⟩ := List.getElem?_eq_some_iff.1 hL
      rcases Nat.lt_or_eq_of_le (show i ≤ I.length - 1 by omega) with hlt' | heq
      · have := (List.pairwise_iff_getElem.1 h.sorted) i (I.length - 1) hi hlt hlt'
        rw [e, e2] at this
        exact this
      · subst heq
        rw [← e, e2]
    rw [List.length_append]
    omega

/-- C112: the grid points are strictly increasing from 0 to the sum of the lengths, never more than a step apart, and the ends of the pieces are grid points. -/
theorem C112_grid (d : ℝ) (hd : 0 < d) (lens : List ℝ) (hl : ∀ l ∈ lens, 0 ≤ l) : GridOk d lens (grid d lens).1 (grid d lens).2 := by
  induction lens using List.reverseRecOn with
  | nil => exact ⟨List.pairwise_singleton _ _, rfl, by simp [grid], by intro i x y _ h; simp [grid] at h, rfl, by intro i hi; exact ⟨0, by simp_all [grid], by simp [grid]⟩, rfl,
      List.pairwise_singleton _ _⟩
  | append_singleton lens len ih =>
    have := gridOk_step hd (ih fun l h => hl l (List.mem_append_left _ h)) len (hl len (by simp))
    unfold grid at this ⊢
    rw [List.foldl_append]
    exact this

/-! ## The optimizer -/

/-- Outcomes of `optimize` other than a path. -/
inductive TErr where
  /-- `runtime_error`: the solver failed -/
  | failed
  /-- `assert (sd_avg > 0.)`; without assertions, a division by zero -/
  | still
deriving DecidableEq, Repr

variable {C : Type}

/-- `Extract::value` (toppra.cc:90-92). -/
noncomputable def extractVal (p : PP ℝ) (dt ds : ℝ) (t : ℝ) : ℝ := lawVal p (t + dt) + ds

/-- Parameterization of the pieces: toppra.cc:259-267; `i` is the rank of the first piece. -/
noncomputable def applyLaw (p : PP ℝ) (P : ℕ → ℝ) (t : ℕ → ℝ) (I : List ℕ) : ℕ → List (Gen ℝ C) → List (Gen ℝ C)
  | _, [] => []
  | i, g :: l => g.setTime (some (extractVal p (t (I.getD i 0)) (-P (I.getD i 0)))) (0, t (I.getD (i + 1) 0) - t (I.getD i 0)) :: applyLaw p P t I (i + 1) l

/-- `TOPPRA::optimize` on the pieces of the flattened path: toppra.cc:146-270. -/
noncomputable def toppra (N : ℕ) (solver : List ℝ → Option (ℕ → ℝ)) (ps : List (Gen ℝ C)) : Except TErr (List (Gen ℝ C)) :=
  let total := (ps.map fun g => g.tr.2 - g.tr.1).sum
  if total < 1 / 1000000 then .ok ps
  else
    let g := grid (total / (N : ℝ)) (ps.map fun g => g.pr.2 - g.pr.1)
    match solver g.1 with
    | none => .error .failed
    | some x =>
      let n := g.1.length - 1
      let s := fun i => g.1.getD i 0
      let sd := fun i => Real.sqrt (max (x i) 0)
      if (List.range n).all (fun i => decide (0 < (sd i + sd (i + 1)) * (1 / 2))) then
        .ok (applyLaw (tLaw n s sd) s (tTime s sd) g.2 0 ps)
      else .error .still

/-! ## Specification of the result -/

/-- Piece `q` follows piece `p` of length `len`: on a time interval `[0, T]` it evaluates to `p` at parameters that start at 0, end at `len`, and strictly increase with time at a
speed at most `V`. -/
def Retimed (V : ℝ) (p q : Gen ℝ C) (T len : ℝ) : Prop :=
  q.tr = (0, T) ∧ q.pr = (0, len) ∧ ∃ f : ℝ → ℝ, f 0 = 0 ∧ f T = len ∧ StrictMonoOn f (Set.Icc 0 T) ∧
    (∀ x y, 0 ≤ x → x ≤ y → y ≤ T → f y - f x ≤ V * (y - x)) ∧ ∀ x, q.eval x = p.eval (f x)

theorem applyLaw_get (p : PP ℝ) (P : ℕ → ℝ) (t : ℕ → ℝ) (I : List ℕ) (i : ℕ) (ps : List (Gen ℝ C)) :
    (applyLaw p P t I i ps).length = ps.length ∧ ∀ (j : ℕ) (g : Gen ℝ C), ps[j]? = some g →
      (applyLaw p P t I i ps)[j]? = some (g.setTime (some (extractVal p (t (I.getD (i + j) 0)) (-P (I.getD (i + j) 0)))) (0, t (I.getD (i + j + 1) 0) - t (I.getD (i + j) 0))) := by
  induction ps generalizing i with
  | nil => exact ⟨rfl, by simp⟩
  | cons g l ih =>
    obtain ⟨h1, h2⟩ := ih (i + 1)
    refine ⟨by simp [applyLaw, h1], ?_⟩
    intro j g' hj
    cases j with
    | zero => simp at hj; subst hj; simp [applyLaw]
    | succ j =>
      rw [List.getElem?_cons_succ] at hj
      rw [applyLaw, List.getElem?_cons_succ, h2 j g' hj, show i + 1 + j = i + (j + 1) by omega]

/-- A path without time parameterization. -/
def Plain (g : Gen ℝ C) : Prop := g.tp = none ∧ g.tr = g.pr ∧ g.pr.1 ≤ g.pr.2

theorem take_sum_succ (l : List ℝ) (i : ℕ) (x : ℝ) (h : l[i]? = some x) : (l.take (i + 1)).sum = (l.take i).sum + x := by
  rw [List.take_add_one, h]
  simp

/-- C112: the pieces of the result are those of the path, in the same order, each run through monotonically over its length from parameter 0, and no faster along the path
than the greatest velocity chosen by the solver; a piece whose parameter starts at 0 is thus run through from its first to its last configuration.
Partial: for pieces without time parameterization, and a number of grid points that is positive; a piece whose parameter does not start at 0 is not run through
(`C112_shift_counterexample`). -/
theorem C112_result_partial (N : ℕ) (hN : 0 < N) (solver : List ℝ → Option (ℕ → ℝ)) (ps qs : List (Gen ℝ C)) (hp : ∀ g ∈ ps, Plain g)
    (hlong : 1 / 1000000 ≤ (ps.map fun g => g.tr.2 - g.tr.1).sum) (h : toppra N solver ps = .ok qs)
    (V : ℝ) (hV : ∀ P x, solver P = some x → ∀ i < P.length, x i ≤ V ^ 2) (hV0 : 0 ≤ V) :
    qs.length = ps.length ∧ ∀ (i : ℕ) (p : Gen ℝ C), ps[i]? = some p → ∃ q T, qs[i]? = some q ∧ 0 ≤ T ∧ Retimed V p q T (p.pr.2 - p.pr.1) ∧
      (p.pr.1 = 0 → q.eval 0 = p.eval p.tr.1 ∧ q.eval T = p.eval p.tr.2) := by
  have hlens : (ps.map fun g : Gen ℝ C => g.tr.2 - g.tr.1) = ps.map fun g => g.pr.2 - g.pr.1 :=
    List.map_congr_left fun g hg => by rw [(hp g hg).2.1]
  unfold toppra at h
  simp only [if_neg (not_lt.2 hlong)] at h
  rw [hlens] at h hlong
  generalize hL : (ps.map fun g : Gen ℝ C => g.pr.2 - g.pr.1) = lens at *
  have hl : ∀ l ∈ lens, 0 ≤ l := by
    rw [← hL]
    intro l hl
    obtain ⟨g, hg, rfl⟩ := List.mem_map.1 hl
    exact sub_nonneg.2 (hp g hg).2.2
  have hd : 0 < lens.sum / (N : ℝ) := div_pos (by norm_num at hlong ⊢; linarith) (by exact_mod_cast hN)
  have G := C112_grid (lens.sum / (N : ℝ)) hd lens hl
  generalize grid (lens.sum / (N : ℝ)) lens = g at *
  obtain ⟨P, I⟩ := g
  simp only at h G
  cases hs : solver P with
  | none => rw [hs] at h; cases h
  | some x =>
    rw [hs] at h
    simp only at h
    have hxV := hV P x hs
    by_cases hall : (List.range (P.length - 1)).all (fun i => decide (0 < (Real.sqrt (max (x i) 0) + Real.sqrt (max (x (i + 1)) 0)) * (1 / 2))) = true
    swap
    · rw [if_neg hall] at h; cases h
    rw [if_pos hall] at h
    injection h with h
    subst h
    have hall' : ∀ i < P.length - 1, 0 < (Real.sqrt (max (x i) 0) + Real.sqrt (max (x (i + 1)) 0)) * (1 / 2) := fun i hi =>
      of_decide_eq_true ((List.all_eq_true.1 hall) i (List.mem_range.2 hi))
    clear hall
    obtain ⟨sd, hsd⟩ : ∃ sd : ℕ → ℝ, (fun i => Real.sqrt (max (x i) 0)) = sd := ⟨_, rfl⟩
    have hsd' : ∀ i, Real.sqrt (max (x i) 0) = sd i := fun i => congrFun hsd i
    simp only [hsd'] at hall' ⊢
    have hPne : P ≠ [] := by
      intro e
      have := G.first
      rw [e] at this
      simp at this
    have hPpos : 0 < P.length := List.length_pos_of_ne_nil hPne
    have hgetD : ∀ k v, P[k]? = some v → P.getD k 0 = v := fun k v hk => by rw [List.getD_eq_getElem?_getD, hk]; rfl
    have prof : Profile (P.length - 1) (fun i => P.getD i 0) sd := by
      refine ⟨?_, ?_, ?_⟩
      · intro i hi
        have h1 : i < P.length := by omega
        have h2 : i + 1 < P.length := by omega
        simp only [hgetD i _ (List.getElem?_eq_getElem h1), hgetD (i + 1) _ (List.getElem?_eq_getElem h2)]
        exact (List.pairwise_iff_getElem.1 G.inc) i (i + 1) h1 h2 (by omega)
      · intro i _
        rw [← hsd' i]
        exact Real.sqrt_nonneg _
      · intro i hi
        have := hall' i hi
        linarith
    have hn : 0 < P.length - 1 := by
      by_contra hc
      have h1 : P.length = 1 := by omega
      have a := G.first
      have b := G.last
      rw [List.head?_eq_getElem?] at a
      rw [List.getLast?_eq_getElem?, h1, a] at b
      have : (0 : ℝ) = lens.sum := Option.some.inj b
      linarith
    have hsV : ∀ i ≤ P.length - 1, sd i ≤ V := by
      intro i hi
      rw [← hsd' i]
      apply Real.sqrt_le_iff.2
      exact ⟨hV0, max_le (hxV i (by omega)) (sq_nonneg V)⟩
    obtain ⟨L1, L2, L3, L4⟩ := C112_law hn prof
    obtain ⟨a1, a2⟩ := applyLaw_get (tLaw (P.length - 1) (fun i => P.getD i 0) sd) (fun i => P.getD i 0) (tTime (fun i => P.getD i 0) sd) I 0 ps
    refine ⟨a1, ?_⟩
    intro i p hi
    have hil : i < ps.length := (List.getElem?_eq_some_iff.1 hi).1
    have hll : lens.length = ps.length := by rw [← hL, List.length_map]
    obtain ⟨k0, k1, k2⟩ := G.ends i (by omega)
    obtain ⟨m0, m1, m2⟩ := G.ends (i + 1) (by omega)
    have hk : k0 ≤ m0 := by
      obtain ⟨u1, u2⟩ := List.getElem?_eq_some_iff.1 k1
      obtain ⟨w1, w2⟩ := List.getElem?_eq_some_iff.1 m1
      have := (List.pairwise_iff_getElem.1 G.sorted) i (i + 1) u1 w1 (by omega)
      rw [u2, w2] at this
      exact this
    have hmP : m0 ≤ P.length - 1 := by
      have := (List.getElem?_eq_some_iff.1 m2).1
      omega
    have hli : lens[i]? = some (p.pr.2 - p.pr.1) := by rw [← hL, List.getElem?_map, hi]; rfl
    rw [take_sum_succ lens i _ hli] at m2
    have plain := hp p (List.mem_of_getElem? hi)
    have q1 := a2 i p hi
    have I0 : I.getD (0 + i) 0 = k0 := by rw [Nat.zero_add, List.getD_eq_getElem?_getD, k1]; rfl
    have I1 : I.getD (0 + i + 1) 0 = m0 := by rw [Nat.zero_add, List.getD_eq_getElem?_getD, m1]; rfl
    rw [I0, I1] at q1
    generalize hs : (fun i => P.getD i 0) = s at *
    have sk : s k0 = (lens.take i).sum := by rw [← hs]; exact hgetD _ _ k2
    have sm : s m0 = (lens.take i).sum + (p.pr.2 - p.pr.1) := by rw [← hs]; exact hgetD _ _ m2
    have sP : P.getD k0 0 = s k0 := by rw [← hs]
    rw [sP] at q1
    have T0 := tTime_le prof hk hmP
    have Tk : 0 ≤ tTime s sd k0 := tTime_le prof (Nat.zero_le k0) (by omega)
    have Tm := tTime_le prof hmP le_rfl
    have f0 : extractVal (tLaw (P.length - 1) s sd) (tTime s sd k0) (-s k0) 0 = 0 := by
      unfold extractVal
      rw [zero_add, lawVal_knot hn prof k0 (by omega)]
      ring
    have fT : extractVal (tLaw (P.length - 1) s sd) (tTime s sd k0) (-s k0) (tTime s sd m0 - tTime s sd k0) = p.pr.2 - p.pr.1 := by
      unfold extractVal
      rw [sub_add_cancel, lawVal_knot hn prof m0 hmP, sk, sm]
      ring
    have ev : ∀ x, (p.setTime (some (extractVal (tLaw (P.length - 1) s sd) (tTime s sd k0) (-s k0))) (0, tTime s sd m0 - tTime s sd k0)).eval x =
        p.eval (extractVal (tLaw (P.length - 1) s sd) (tTime s sd k0) (-s k0) x) := by
      intro x
      have e : p.paramAtTime (extractVal (tLaw (P.length - 1) s sd) (tTime s sd k0) (-s k0) x) = extractVal (tLaw (P.length - 1) s sd) (tTime s sd k0) (-s k0) x := by
        unfold Gen.paramAtTime
        rw [plain.1]
      unfold Gen.eval
      rw [e]
      rfl
    refine ⟨_, tTime s sd m0 - tTime s sd k0, q1, by linarith, ⟨rfl, ?_, _, f0, fT, ?_, ?_, ev⟩, ?_⟩
    · show ((_ : ℝ), (_ : ℝ)) = _
      rw [f0, fT]
    · intro x hx y hy hxy
      have := L1 (a := x + tTime s sd k0) ⟨by linarith [hx.1], by linarith [hx.2]⟩ (b := y + tTime s sd k0) ⟨by linarith [hy.1], by linarith [hy.2]⟩ (by linarith)
      unfold extractVal
      linarith
    · intro x y hx hxy hy
      have := L4 V hsV (x + tTime s sd k0) (y + tTime s sd k0) (by linarith) (by linarith) (by linarith)
      unfold extractVal
      linarith
    · intro h0
      rw [ev, ev, f0, fT, plain.2.1, h0, sub_zero]
      exact ⟨rfl, rfl⟩

/-- C112: nothing but a failure of the solver, or two null velocities in a row, makes the optimization fail; a path shorter than the threshold is returned without change. -/
theorem C112_outcome (N : ℕ) (solver : List ℝ → Option (ℕ → ℝ)) (ps : List (Gen ℝ C)) :
    ((ps.map fun g => g.tr.2 - g.tr.1).sum < 1 / 1000000 → toppra N solver ps = .ok ps) ∧
    ((∀ P, ∃ x, solver P = some x ∧ ∀ i, i + 1 < P.length → 0 < x i ∨ 0 < x (i + 1)) → ∃ qs, toppra N solver ps = .ok qs) := by
  constructor
  · intro h
    unfold toppra
    simp only [if_pos h]
  · intro h
    unfold toppra
    by_cases hc : (ps.map fun g => g.tr.2 - g.tr.1).sum < 1 / 1000000
    · simp only [if_pos hc]
      exact ⟨_, rfl⟩
    · simp only [if_neg hc]
      generalize grid _ _ = g
      obtain ⟨x, hx, hx2⟩ := h g.1
      rw [hx]
      simp only
      rw [if_pos]
      · exact ⟨_, rfl⟩
      · rw [List.all_eq_true]
        intro i hi
        have hi := List.mem_range.1 hi
        apply decide_eq_true
        have n1 := Real.sqrt_nonneg (max (x i) 0)
        have n2 := Real.sqrt_nonneg (max (x (i + 1)) 0)
        rcases hx2 i (by omega) with hp | hp
        · have : 0 < Real.sqrt (max (x i) 0) := Real.sqrt_pos.2 (lt_max_of_lt_left hp)
          linarith
        · have : 0 < Real.sqrt (max (x (i + 1)) 0) := Real.sqrt_pos.2 (lt_max_of_lt_left hp)
          linarith

/-! ## Pieces that do not start at 0, pieces with a time parameterization, no grid point, bounds of velocity -/

namespace TEx
/-- The straight motion between 1 and 2, defined on `[1, 2]` (as the second half of a path after `extract`). -/
noncomputable def half : Gen ℝ ℝ := ⟨fun s => .ok s, none, none, (1, 2), (1, 2)⟩

/-- The straight motion between 0 and 2, run through in one second. -/
noncomputable def fast : Gen ℝ ℝ := ⟨fun s => .ok s, none, some fun t => 2 * t, (0, 1), (0, 2)⟩

/-- Velocities 1 everywhere. -/
def one : List ℝ → Option (ℕ → ℝ) := fun _ => some fun _ => 1

theorem long : 1 / 1000000 ≤ ([half].map fun g : Gen ℝ ℝ => g.tr.2 - g.tr.1).sum := by norm_num [half]

/-- Hypotheses of `C112_result_partial`. -/
example : ∃ qs, toppra 50 one [half] = .ok qs ∧ (∀ g ∈ [half], Plain g) ∧ ∀ P x, one P = some x → ∀ i < P.length, x i ≤ (1 : ℝ) ^ 2 := by
  obtain ⟨qs, h⟩ := (C112_outcome 50 one [half]).2 fun P => ⟨fun _ => 1, rfl, fun i _ => Or.inl one_pos⟩
  refine ⟨qs, h, ?_, ?_⟩
  · intro g hg
    rw [List.mem_singleton] at hg
    subst hg
    exact ⟨rfl, rfl, by norm_num [half]⟩
  · intro P x hx i _
    cases hx
    norm_num

/-- C112: a path that starts at parameter 1 is returned by the optimizer as the motion from parameter 0 to 1: it starts at another configuration (0 instead of 1). -/
theorem C112_shift_counterexample : ∃ q, toppra 50 one [half] = .ok [q] ∧ half.eval half.tr.1 = .ok 1 ∧ q.eval q.tr.1 = .ok 0 := by
  obtain ⟨qs, h⟩ := (C112_outcome 50 one [half]).2 fun P => ⟨fun _ => 1, rfl, fun i _ => Or.inl one_pos⟩
  obtain ⟨a, b⟩ := C112_result_partial 50 (by norm_num) one [half] qs (by
    intro g hg
    rw [List.mem_singleton] at hg
    subst hg
    exact ⟨rfl, rfl, by norm_num [half]⟩) long h 1 (by
    intro P x hx i _
    cases hx
    norm_num) zero_le_one
  obtain ⟨q, T, e, _, ⟨r1, _, f, f0, _, _, _, ev⟩, _⟩ := b 0 half rfl
  match qs, a, e with
  | [q'], _, e =>
    cases e
    refine ⟨q, h, rfl, ?_⟩
    rw [r1, ev, f0]
    rfl

/-- C112: on a path that is already parameterized, the grid points go over the parameters while the solver sees the path as a function of time: the last grid point is not the end of
the interval of definition of the path. -/
theorem C112_grid_counterexample (N : ℕ) (hN : 0 < N) :
    ([fast].map fun g : Gen ℝ ℝ => g.tr.2 - g.tr.1).sum = 1 ∧
    (grid (([fast].map fun g : Gen ℝ ℝ => g.tr.2 - g.tr.1).sum / (N : ℝ)) ([fast].map fun g => g.pr.2 - g.pr.1)).1.getLast? = some 2 := by
  have e : ([fast].map fun g : Gen ℝ ℝ => g.tr.2 - g.tr.1).sum = 1 := by norm_num [fast]
  refine ⟨e, ?_⟩
  have hN' : (0 : ℝ) < N := by exact_mod_cast hN
  rw [e, (C112_grid (1 / (N : ℝ)) (by positivity) ([fast].map fun g => g.pr.2 - g.pr.1) (by
    intro l hl
    simp only [List.map_cons, List.map_nil, List.mem_singleton] at hl
    subst hl
    norm_num [fast])).last]
  norm_num [fast]

/-- C112: without any grid point (parameter `N` null: in the code the step is infinite, there is no point inside the pieces either), the result lasts no time. -/
theorem C112_zero_counterexample (solver : List ℝ → Option (ℕ → ℝ)) (x : ℕ → ℝ) (hx : solver [0] = some x) :
    ∃ q, toppra 0 solver [half] = .ok [q] ∧ q.tr = (0, 0) := by
  have hg : grid (([half].map fun g : Gen ℝ ℝ => g.tr.2 - g.tr.1).sum / ((0 : ℕ) : ℝ)) ([half].map fun g => g.pr.2 - g.pr.1) = ([0], [0, 0]) := by
    simp [grid, gridStep, gridPts]
  refine ⟨half.setTime (some (extractVal (tLaw 0 (fun i => [(0 : ℝ)].getD i 0) fun i => Real.sqrt (max (x i) 0)) 0 (-0))) (0, 0 - 0), ?_, ?_⟩
  · unfold toppra
    simp only [if_neg (not_lt.2 long), hg, hx]
    rfl
  · show ((0 : ℝ), (0 : ℝ) - 0) = _
    rw [sub_zero]
end TEx

/-- `Extract::derivativeBound` (toppra.cc:98-101) calls itself, not the method of the parameterization it decorates; `none`: the calls did not return within the fuel. -/
noncomputable def extractBound (inner : ℝ → ℝ → ℝ) (dt : ℝ) : ℕ → ℝ → ℝ → Option ℝ
  | 0, _, _ => none
  | n + 1, low, up => extractBound inner dt n (low + dt) (up + dt)

/-- C112: the bound of the velocity of a piece of the result is never returned. -/
theorem C112_bound_counterexample (inner : ℝ → ℝ → ℝ) (dt low up : ℝ) (n : ℕ) : extractBound inner dt n low up = none := by
  induction n generalizing low up with
  | zero => rfl
  | succ n ih => exact ih _ _

end Verif.TimeParam
