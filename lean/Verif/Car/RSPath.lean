import Verif.Car.ReedsShepp
import Verif.Car.Dubins
import Mathlib.Analysis.Real.Pi.Bounds
import Mathlib.Analysis.SpecialFunctions.Trigonometric.Bounds
set_option linter.unusedSectionVars false

/-!
# Paths of Reeds and Shepp: `reedsSheppPathOrDistance`, `steeringMethod::ReedsShepp`, `distance::ReedsShepp` (C88)

Simplifications: those of `Car/Arc.lean` and `Car/Dubins.lean`; `precision` and `ZERO` are parameters.
-/
namespace Verif.Car.RS
open Complex

variable {E W : Type} [AddCommGroup E] [Module ℝ E]

/-- `rotate`: reeds-shepp-path.cc:94-101. -/
def rotate (u cs : ℂ) : ℂ := ⟨u.re * cs.re + u.im * cs.im, -u.re * cs.im + u.im * cs.re⟩

/-- `XY`: reeds-shepp-path.cc:619-621. -/
noncomputable def normXY (rho : ℝ) (q0 q1 : Cfg E W) : ℂ :=
  let r := rotate ⟨q1.x - q0.x, q1.y - q0.y⟩ ⟨q0.c, q0.s⟩
  ⟨r.re / rho, r.im / rho⟩

/-- `csPhi`: reeds-shepp-path.cc:622. -/
def normH (q0 q1 : Cfg E W) : ℂ := rotate ⟨q1.c, q1.s⟩ ⟨q0.c, q0.s⟩

/-- `phi`: reeds-shepp-path.cc:623. -/
noncomputable def normPhi (q0 q1 : Cfg E W) : ℝ := atan2 (normH q0 q1).im (normH q0 q1).re

/-- `XY.squaredNorm () + phi * phi < 1e-8`: reeds-shepp-path.cc:627. -/
def Tiny (rho : ℝ) (q0 q1 : Cfg E W) : Prop :=
  (normXY rho q0 q1).re * (normXY rho q0 q1).re + (normXY rho q0 q1).im * (normXY rho q0 q1).im + normPhi q0 q1 * normPhi q0 q1 < 1 / 10 ^ 8

/-- The loop that builds the path: reeds-shepp-path.cc:644-675. `s` is the length built so far, `q` is `qInit`. -/
noncomputable def rsLoop (interp : Cfg E W → Cfg E W → ℝ → Cfg E W) (wheel : ℝ → W) (precision rho extra L : ℝ) (q0 q1 : Cfg E W) :
    List (Turn × ℝ) → ℝ → Cfg E W → List (CC E W)
  | [], _, _ => []
  | (ty, x) :: r, s, q =>
    if precision < |x| then
      let l := rho * |x|
      match ty with
      | .nop => []
      | ty =>
        let K := CC.create q (interp q0 q1 ((s + l) / L)) (rho * x) (l * (1 + extra / L)) (ty.curv / rho) (wheel (ty.curv / rho))
        K :: rsLoop interp wheel precision rho extra L q0 q1 r (s + l) K.fin
    else rsLoop interp wheel precision rho extra L q0 q1 r s q

open Classical in
/-- `reedsSheppPathOrDistance` when a path is asked for: reeds-shepp-path.cc:603-682; `none`: type and lengths read without having been set. -/
noncomputable def rsPath (interp : Cfg E W → Cfg E W → ℝ → Cfg E W) (wheel : ℝ → W) (zero precision rho extra : ℝ) (q0 q1 : Cfg E W) : Option (List (CC E W)) :=
  if Tiny rho q0 q1 then some [CC.create q0 q1 0 extra 0 (wheel 0)]
  else (rsBest zero rho (normXY rho q0 q1) (normH q0 q1) (normPhi q0 q1)).map fun d =>
    rsLoop interp wheel precision rho extra d.rsLength q0 q1 ((types d.typeId).zip d.lens) 0 q0

open Classical in
/-- `reedsSheppPathOrDistance` when a distance is asked for: reeds-shepp-path.cc:603-682. -/
noncomputable def rsDist (zero rho extra : ℝ) (q0 q1 : Cfg E W) : Option ℝ :=
  if Tiny rho q0 q1 then some extra
  else (rsBest zero rho (normXY rho q0 q1) (normH q0 q1) (normPhi q0 q1)).map fun d => d.rsLength + extra

/-- `ReedsShepp::impl_compute`: steering-method/reeds-shepp.cc:41-62. -/
noncomputable def rsSteer (interp : Cfg E W → Cfg E W → ℝ → Cfg E W) (wheel : ℝ → W) (dist : Cfg E W → Cfg E W → ℝ) (zero precision rho : ℝ) (q1 q2 : Cfg E W) :
    Option (List (CC E W)) := rsPath interp wheel zero precision rho (dist q1 (extraEnd q1 q2)) q1 q2

/-- `distance::ReedsShepp::impl_distance`: distance/reeds-shepp.cc:120-141. -/
noncomputable def rsDistance (dist : Cfg E W → Cfg E W → ℝ) (zero rho : ℝ) (q1 q2 : Cfg E W) : Option ℝ := rsDist zero rho (dist q1 (extraEnd q1 q2)) q1 q2

/-! ## Specification -/

/-- Paths that follow each other from a configuration to another one. -/
def Chained : Cfg E W → List (CC E W) → Cfg E W → Prop
  | q, [], r => r = q
  | q, K :: ks, r => K.init = q ∧ Chained K.fin ks r

/-- Length of a vector of paths. -/
def totalLength (ks : List (CC E W)) : ℝ := (ks.map fun K => K.t1 - K.t0).sum

/-- Distance driven along a vector of paths. -/
def driven (ks : List (CC E W)) : ℝ := (ks.map fun K => |K.curveLength|).sum

/-! ## Bounds -/

/-- Sum of the lengths of a word. -/
def wlen (w : List (ℝ × ℝ)) : ℝ := (w.map fun s => |s.2|).sum

theorem wlen_nonneg (w : List (ℝ × ℝ)) : 0 ≤ wlen w := List.sum_nonneg (by intro x hx; obtain ⟨s, _, rfl⟩ := List.mem_map.1 hx; exact abs_nonneg _)

theorem wlen_cons (k t : ℝ) (w : List (ℝ × ℝ)) : wlen ((k, t) :: w) = |t| + wlen w := by simp [wlen]

theorem normSq_disp {k : ℝ} (h : k ≠ 0) (t : ℝ) : ‖disp k t‖ ^ 2 = (2 - 2 * Real.cos (k * t)) / k ^ 2 := by
  rw [Complex.sq_norm]
  unfold disp
  rw [if_neg h, Complex.normSq_mk]
  have := Real.sin_sq_add_cos_sq (k * t)
  field_simp
  nlinarith

theorem norm_disp_le (k t : ℝ) : ‖disp k t‖ ≤ |t| := by
  by_cases h : k = 0
  · unfold disp
    rw [if_pos h, Complex.norm_def, Complex.normSq_mk, mul_zero, add_zero, Real.sqrt_mul_self_eq_abs]
  · refine abs_le_of_sq_le_sq' ?_ (abs_nonneg t) |>.2
    rw [normSq_disp h, sq_abs, div_le_iff₀ (by positivity)]
    have := Real.one_sub_sq_div_two_le_cos (x := k * t)
    nlinarith

theorem norm_disp_lt {k t : ℝ} (h : k ≠ 0) (ht : t ≠ 0) : ‖disp k t‖ < |t| := by
  refine lt_of_pow_lt_pow_left₀ 2 (abs_nonneg t) ?_
  rw [normSq_disp h, sq_abs, div_lt_iff₀ (by positivity)]
  have := Real.one_sub_sq_div_two_lt_cos (x := k * t) (mul_ne_zero h ht)
  nlinarith

theorem cis_sub_one (x : ℝ) : ‖cis x - 1‖ ≤ |x| := by
  have h := norm_disp_le 1 x
  rw [dispL, norm_mul, norm_neg, norm_I, one_mul] at h
  exact h

/-- A car does not go farther than it is driven. -/
theorem norm_run_le (w : List (ℝ × ℝ)) (p : Pose) : ‖(run w p).1 - p.1‖ ≤ ‖p.2‖ * wlen w := by
  induction w generalizing p with
  | nil => simp [run, wlen]
  | cons a w ih =>
    obtain ⟨k, t⟩ := a
    have h1 := ih (move k t p)
    have h2 : ‖(move k t p).2‖ = ‖p.2‖ := by simp [move, norm_cis]
    have h3 : ‖(move k t p).1 - p.1‖ ≤ ‖p.2‖ * |t| := by
      simp only [move, add_sub_cancel_left, norm_mul]
      exact mul_le_mul_of_nonneg_left (norm_disp_le k t) (norm_nonneg _)
    rw [h2] at h1
    rw [wlen_cons, mul_add]
    show ‖(run w (move k t p)).1 - p.1‖ ≤ _
    calc _ = ‖((run w (move k t p)).1 - (move k t p).1) + ((move k t p).1 - p.1)‖ := by congr 1; ring
      _ ≤ _ := norm_add_le _ _
      _ ≤ _ := by linarith

/-- A car that turns is driven more than the distance it covers. -/
theorem norm_run_lt (w : List (ℝ × ℝ)) (hw : ∀ s ∈ w, s.1 ≠ 0 ∨ s.2 = 0) (p : Pose) (hp : p.2 ≠ 0) (h : wlen w ≠ 0) : ‖(run w p).1 - p.1‖ < ‖p.2‖ * wlen w := by
  induction w generalizing p with
  | nil => simp [wlen] at h
  | cons a w ih =>
    obtain ⟨k, t⟩ := a
    have hpos : 0 < ‖p.2‖ := norm_pos_iff.2 hp
    have h2 : ‖(move k t p).2‖ = ‖p.2‖ := by simp [move, norm_cis]
    have hne : (move k t p).2 ≠ 0 := by rw [← norm_pos_iff, h2]; exact hpos
    have e : ‖(run w (move k t p)).1 - p.1‖ ≤ ‖(run w (move k t p)).1 - (move k t p).1‖ + ‖(move k t p).1 - p.1‖ := by
      calc _ = ‖((run w (move k t p)).1 - (move k t p).1) + ((move k t p).1 - p.1)‖ := by congr 1; ring
        _ ≤ _ := norm_add_le _ _
    show ‖(run w (move k t p)).1 - p.1‖ < _
    have h3 : ‖(move k t p).1 - p.1‖ = ‖p.2‖ * ‖disp k t‖ := by simp [move]
    rw [wlen_cons, mul_add]
    by_cases ht : t = 0
    · subst ht
      rw [wlen_cons, abs_zero, zero_add] at h
      have := ih (fun s hs => hw s (List.mem_cons_of_mem _ hs)) (move k 0 p) hne h
      rw [h2] at this
      rw [disp_zero, norm_zero, mul_zero] at h3
      rw [abs_zero, mul_zero, zero_add]
      linarith
    · have hk : k ≠ 0 := by
        rcases hw (k, t) (List.mem_cons_self ..) with h | h
        · exact h
        · exact absurd h ht
      have h4 := mul_lt_mul_of_pos_left (norm_disp_lt hk ht) hpos
      have h5 := norm_run_le w (move k t p)
      rw [h2] at h5
      linarith

/-- The segments that are built. -/
noncomputable def kept (precision : ℝ) (w : List (ℝ × ℝ)) : List (ℝ × ℝ) := w.filter fun s => precision < |s.2|

/-- Skipping short segments. -/
theorem kept_close {precision : ℝ} (hp : 0 ≤ precision) (w : List (ℝ × ℝ)) (hk : ∀ s ∈ w, |s.1| ≤ 1) (p q : Pose) (hq : ‖q.2‖ = 1) :
    ‖(run (kept precision w) p).1 - (run w q).1‖ ≤ ‖p.1 - q.1‖ + ‖p.2 - q.2‖ * wlen w + w.length * precision * (1 + wlen w) ∧
      ‖(run (kept precision w) p).2 - (run w q).2‖ ≤ ‖p.2 - q.2‖ + w.length * precision := by
  induction w generalizing p q with
  | nil => simp [kept, run, wlen]
  | cons a w ih =>
    obtain ⟨k, t⟩ := a
    have hk' : ∀ s ∈ w, |s.1| ≤ 1 := fun s hs => hk s (List.mem_cons_of_mem _ hs)
    have hk1 : |k| ≤ 1 := hk (k, t) (List.mem_cons_self ..)
    have hq' : ‖(move k t q).2‖ = 1 := by simp [move, norm_cis, hq]
    have hw := wlen_nonneg w
    have hl : (((k, t) :: w).length : ℝ) = w.length + 1 := by simp
    have hn : (0 : ℝ) ≤ w.length := Nat.cast_nonneg _
    have hwp : 0 ≤ w.length * precision := by positivity
    rw [hl, wlen_cons]
    by_cases hc : precision < |t|
    · have e : kept precision ((k, t) :: w) = (k, t) :: kept precision w := by
        unfold kept; rw [List.filter_cons_of_pos (by simpa using hc)]
      obtain ⟨i1, i2⟩ := ih hk' (move k t p) (move k t q) hq'
      rw [e]
      have d1 : ‖(move k t p).1 - (move k t q).1‖ ≤ ‖p.1 - q.1‖ + ‖p.2 - q.2‖ * |t| := by
        have : (move k t p).1 - (move k t q).1 = (p.1 - q.1) + (p.2 - q.2) * disp k t := by simp only [move]; ring
        rw [this]
        refine (norm_add_le _ _).trans ?_
        rw [norm_mul]
        have := mul_le_mul_of_nonneg_left (norm_disp_le k t) (norm_nonneg (p.2 - q.2))
        linarith
      have d2 : ‖(move k t p).2 - (move k t q).2‖ = ‖p.2 - q.2‖ := by
        simp only [move]; rw [← sub_mul, norm_mul, norm_cis, mul_one]
      show ‖(run (kept precision w) (move k t p)).1 - (run w (move k t q)).1‖ ≤ _ ∧ ‖(run (kept precision w) (move k t p)).2 - (run w (move k t q)).2‖ ≤ _
      rw [d2] at i1 i2
      refine ⟨?_, by linarith⟩
      have a1 : 0 ≤ (w.length : ℝ) * precision * |t| := by positivity
      have a2 : 0 ≤ precision * (1 + (|t| + wlen w)) := by positivity
      nlinarith
    · have e : kept precision ((k, t) :: w) = kept precision w := by
        unfold kept; rw [List.filter_cons_of_neg (by simpa using hc)]
      obtain ⟨i1, i2⟩ := ih hk' p (move k t q) hq'
      rw [e]
      have ht := not_lt.1 hc
      have d1 : ‖p.1 - (move k t q).1‖ ≤ ‖p.1 - q.1‖ + precision := by
        have : p.1 - (move k t q).1 = (p.1 - q.1) + -(q.2 * disp k t) := by simp only [move]; ring
        rw [this]
        refine (norm_add_le _ _).trans ?_
        rw [norm_neg, norm_mul, hq, one_mul]
        linarith [norm_disp_le k t]
      have d2 : ‖p.2 - (move k t q).2‖ ≤ ‖p.2 - q.2‖ + precision := by
        have : p.2 - (move k t q).2 = (p.2 - q.2) + -(q.2 * (cis (k * t) - 1)) := by simp only [move]; ring
        rw [this]
        refine (norm_add_le _ _).trans ?_
        rw [norm_neg, norm_mul, hq, one_mul]
        have h1 := cis_sub_one (k * t)
        rw [abs_mul] at h1
        have h2 : |k| * |t| ≤ 1 * |t| := mul_le_mul_of_nonneg_right hk1 (abs_nonneg t)
        linarith
      show ‖(run (kept precision w) p).1 - (run w (move k t q)).1‖ ≤ _ ∧ ‖(run (kept precision w) p).2 - (run w (move k t q)).2‖ ≤ _
      refine ⟨?_, by linarith⟩
      have a1 : ‖p.2 - (move k t q).2‖ * wlen w ≤ (‖p.2 - q.2‖ + precision) * wlen w := mul_le_mul_of_nonneg_right d2 hw
      have a3 : 0 ≤ ‖p.2 - q.2‖ * |t| := by positivity
      have a4 : 0 ≤ ((w.length : ℝ) + 1) * precision * |t| := by positivity
      nlinarith

theorem kept_wlen {precision : ℝ} (hp : 0 ≤ precision) (w : List (ℝ × ℝ)) : wlen (kept precision w) ≤ wlen w ∧ wlen w ≤ wlen (kept precision w) + w.length * precision := by
  induction w with
  | nil => simp [kept, wlen]
  | cons a w ih =>
    obtain ⟨k, t⟩ := a
    have hl : (((k, t) :: w).length : ℝ) = w.length + 1 := by simp
    rw [hl, wlen_cons]
    by_cases hc : precision < |t|
    · have e : kept precision ((k, t) :: w) = (k, t) :: kept precision w := by
        unfold kept; rw [List.filter_cons_of_pos (by simpa using hc)]
      rw [e, wlen_cons]
      constructor <;> linarith [ih.1, ih.2]
    · have e : kept precision ((k, t) :: w) = kept precision w := by
        unfold kept; rw [List.filter_cons_of_neg (by simpa using hc)]
      rw [e]
      have := not_lt.1 hc
      constructor <;> linarith [ih.1, ih.2, abs_nonneg t]

/-! ## The loop -/

/-- Driving with the radius `rho`. -/
noncomputable def runS (rho : ℝ) : List (ℝ × ℝ) → Pose → Pose
  | [], p => p
  | (k, t) :: w, p => runS rho w (move (k / rho) (rho * t) p)

theorem runS_unnorm {rho : ℝ} (hr : 0 < rho) (P : ℂ) (theta : ℝ) (w : List (ℝ × ℝ)) (p : Pose) : runS rho w (unnorm P rho theta p) = unnorm P rho theta (run w p) := by
  induction w generalizing p with
  | nil => rfl
  | cons a w ih =>
    show runS rho w (move (a.1 / rho) (rho * a.2) _) = _
    rw [unnorm_move hr]
    exact ih _

/-- Segments as curvatures and lengths. -/
def segs (w : List (Turn × ℝ)) : List (ℝ × ℝ) := w.map fun s => (s.1.curv, s.2)

theorem segs_word (id : ℕ) (lens : List ℝ) : segs ((types id).zip lens) = word id lens := by
  unfold segs word
  generalize types id = ts
  induction ts generalizing lens with
  | nil => rfl
  | cons t ts ih =>
    cases lens with
    | nil => rfl
    | cons l lens => simp [ih]

theorem curv_le (ty : Turn) : |ty.curv| ≤ 1 := by cases ty <;> simp [Turn.curv]

theorem curv_rho {rho : ℝ} (hr : 0 < rho) (ty : Turn) : ty.curv / rho = 0 ∨ |ty.curv / rho| = 1 / rho := by
  cases ty
  · left; simp [Turn.curv]
  · right; rw [Turn.curv, abs_of_pos (by positivity)]
  · left; simp [Turn.curv]
  · right; rw [Turn.curv, neg_div, abs_neg, abs_of_pos (by positivity)]

theorem rsLoop_spec {interp : Cfg E W → Cfg E W → ℝ → Cfg E W} {wheel : ℝ → W} {precision rho extra L : ℝ} (hp : 0 ≤ precision) (hr : 0 < rho) (he : 0 ≤ extra) (hL : 0 < L)
    (q0 q1 : Cfg E W) (w : List (Turn × ℝ)) (hn : ∀ s ∈ w, s.1 = .nop → s.2 = 0) (s : ℝ) (q : Cfg E W) :
    let ks := rsLoop interp wheel precision rho extra L q0 q1 w s q
    ∃ r, Chained q ks r ∧ r.pose = runS rho (kept precision (segs w)) q.pose ∧
      (∀ K ∈ ks, K.Coherent ∧ K.t0 = 0 ∧ K.t1 = |K.curveLength| * (1 + extra / L) ∧ (K.curvature = 0 ∨ |K.curvature| = 1 / rho)) ∧
      driven ks = rho * wlen (kept precision (segs w)) ∧
      (kept precision (segs w) = [] → ks = [] ∧ r = q) ∧ (kept precision (segs w) ≠ [] → ks ≠ [] ∧ r.o = (interp q0 q1 ((s + rho * wlen (kept precision (segs w))) / L)).o) := by
  induction w generalizing s q with
  | nil => exact ⟨q, rfl, rfl, fun K hK => (by cases hK), by simp [rsLoop, driven, segs, kept, wlen], fun _ => ⟨rfl, rfl⟩, fun h => absurd rfl h⟩
  | cons a w ih =>
    obtain ⟨ty, x⟩ := a
    have hn' : ∀ s ∈ w, s.1 = .nop → s.2 = 0 := fun s hs => hn s (List.mem_cons_of_mem _ hs)
    by_cases hc : precision < |x|
    · have hx : |x| ≠ 0 := (lt_of_le_of_lt hp hc).ne'
      have hty : ty ≠ .nop := fun h => hx (by have := hn (ty, x) (List.mem_cons_self ..) h; simp only at this; rw [this, abs_zero])
      have e : kept precision (segs ((ty, x) :: w)) = (ty.curv, x) :: kept precision (segs w) := by
        show List.filter _ ((ty.curv, x) :: segs w) = _
        rw [List.filter_cons_of_pos (by simpa using hc)]; rfl
      have hfac : 0 < 1 + extra / L := by positivity
      have hlen : rho * |x| * (1 + extra / L) ≠ 0 := mul_ne_zero (mul_ne_zero hr.ne' hx) hfac.ne'
      generalize hK : CC.create q (interp q0 q1 ((s + rho * |x|) / L)) (rho * x) (rho * |x| * (1 + extra / L)) (ty.curv / rho) (wheel (ty.curv / rho)) = K
      have hloop : rsLoop interp wheel precision rho extra L q0 q1 ((ty, x) :: w) s q = K :: rsLoop interp wheel precision rho extra L q0 q1 w (s + rho * |x|) K.fin := by
        rw [← hK]
        rw [rsLoop, if_pos hc]
        cases ty with
        | nop => exact absurd rfl hty
        | L => rfl
        | S => rfl
        | R => rfl
      obtain ⟨c1, c2, c3, _, _, c4, _⟩ := C85_create q (interp q0 q1 ((s + rho * |x|) / L)) (rho * x) (rho * |x| * (1 + extra / L)) (ty.curv / rho) (wheel (ty.curv / rho))
      obtain ⟨c5, c6⟩ := c4 hlen
      have k1 : K.init = q := by rw [← hK]; rfl
      have k2 : K.curveLength = rho * x := by rw [← hK]; rfl
      have k3 : K.curvature = ty.curv / rho := by rw [← hK]; rfl
      rw [hK] at c1 c2 c3 c5 c6
      have k4 : |K.curveLength| = rho * |x| := by rw [k2, abs_mul, abs_of_pos hr]
      obtain ⟨r, r1, r2, r3, r4, r5, r6⟩ := ih hn' (s + rho * |x|) K.fin
      intro ks
      have hks : ks = K :: rsLoop interp wheel precision rho extra L q0 q1 w (s + rho * |x|) K.fin := hloop
      rw [hks, e]
      refine ⟨r, ⟨k1, r1⟩, ?_, fun K' hK' => ?_, ?_, fun h => (by cases h), fun _ => ⟨List.cons_ne_nil _ _, ?_⟩⟩
      · rw [r2, c5]; rfl
      · rcases List.mem_cons.1 hK' with h | h
        · rw [h]
          refine ⟨c1, c2, ?_, ?_⟩
          · rw [c3, k4, abs_of_nonneg (by positivity)]
          · rw [k3]; exact curv_rho hr ty
        · exact r3 K' h
      · show (List.map _ (K :: _)).sum = _
        rw [List.map_cons, List.sum_cons, wlen_cons, mul_add, k4]
        unfold driven at r4
        rw [r4]
      · rw [wlen_cons]
        by_cases hk : kept precision (segs w) = []
        · rw [hk]
          rw [(r5 hk).2, c6]
          simp [wlen]
        · rw [(r6 hk).2]
          congr 3; ring
    · have e : kept precision (segs ((ty, x) :: w)) = kept precision (segs w) := by
        show List.filter _ ((ty.curv, x) :: segs w) = _
        rw [List.filter_cons_of_neg (by simpa using hc)]; rfl
      have hloop : rsLoop interp wheel precision rho extra L q0 q1 ((ty, x) :: w) s q = rsLoop interp wheel precision rho extra L q0 q1 w s q := by
        rw [rsLoop, if_neg hc]
      rw [hloop, e]
      exact ih hn' s q

/-! ## The path -/

theorem rotate_eq (u cs : ℂ) : rotate u cs = u * (starRingEnd ℂ) cs := by
  unfold rotate; rw [Complex.ext_iff]; simp

theorem unit_norm {q : Cfg E W} (h : q.Unit) : ‖q.pose.2‖ = 1 := by rw [← heading_cis h, norm_cis]

theorem normH_eq (q0 q1 : Cfg E W) : normH q0 q1 = q1.pose.2 * (starRingEnd ℂ) q0.pose.2 := rotate_eq _ _

theorem cis_normPhi {q0 q1 : Cfg E W} (h0 : q0.Unit) (h1 : q1.Unit) : cis (normPhi q0 q1) = normH q0 q1 := by
  have hn : ‖normH q0 q1‖ = 1 := by rw [normH_eq, norm_mul, Complex.norm_conj, unit_norm h0, unit_norm h1, mul_one]
  have e := eq_norm_cis (normH q0 q1)
  rw [hn, ofReal_one, one_mul] at e
  exact e.symm

theorem unnorm_start {q0 : Cfg E W} (h0 : q0.Unit) (rho : ℝ) : unnorm q0.pose.1 rho (atan2 q0.s q0.c) start = q0.pose := by
  unfold unnorm start
  rw [heading_cis h0]
  simp

theorem unnorm_target {q0 q1 : Cfg E W} (h0 : q0.Unit) {rho : ℝ} (hr : 0 < rho) :
    unnorm q0.pose.1 rho (atan2 q0.s q0.c) (normXY rho q0 q1, normH q0 q1) = q1.pose := by
  have hu := conj_unit (unit_norm h0)
  have hr' : (rho : ℂ) ≠ 0 := by exact_mod_cast hr.ne'
  unfold unnorm
  rw [heading_cis h0]
  have e1 : normXY rho q0 q1 = (q1.pose.1 - q0.pose.1) * (starRingEnd ℂ) q0.pose.2 / rho := by
    have : (q1.pose.1 - q0.pose.1) * (starRingEnd ℂ) q0.pose.2 = rotate ⟨q1.x - q0.x, q1.y - q0.y⟩ ⟨q0.c, q0.s⟩ := by
      rw [rotate_eq]; congr 1
    rw [this]
    unfold normXY
    simp only
    rw [Complex.ext_iff]
    simp [Complex.div_ofReal_re, Complex.div_ofReal_im]
  refine Prod.ext ?_ ?_
  · simp only
    rw [e1]
    field_simp
    linear_combination (q1.pose.1 - q0.pose.1) * hu
  · simp only
    rw [normH_eq]
    linear_combination q1.pose.2 * hu

theorem l1_wlen (ts : List Turn) (l : List ℝ) (h : ts.length = l.length) : wlen (segs (ts.zip l)) = l1 l := by
  induction ts generalizing l with
  | nil =>
    cases l with
    | nil => simp [segs, wlen, l1]
    | cons a l => cases h
  | cons t ts ih =>
    cases l with
    | nil => cases h
    | cons a l =>
      have := ih l (by simpa using h)
      show wlen ((t.curv, a) :: segs (ts.zip l)) = _
      rw [wlen_cons, this]
      simp [l1]

theorem turned (w : List (ℝ × ℝ)) (hk : ∀ s ∈ w, |s.1| ≤ 1) (p : Pose) : ∃ x : ℝ, |x| ≤ wlen w ∧ (run w p).2 = p.2 * cis x := by
  induction w generalizing p with
  | nil => exact ⟨0, by simp [wlen], by simp [run, cis_zero]⟩
  | cons a w ih =>
    obtain ⟨k, t⟩ := a
    obtain ⟨x, hx, e⟩ := ih (fun s hs => hk s (List.mem_cons_of_mem _ hs)) (move k t p)
    refine ⟨k * t + x, ?_, ?_⟩
    · rw [wlen_cons]
      have h1 := abs_add_le (k * t) x
      rw [abs_mul] at h1
      have := mul_le_mul_of_nonneg_right (hk (k, t) (List.mem_cons_self ..)) (abs_nonneg t)
      simp only at this
      linarith
    · show (run w (move k t p)).2 = _
      rw [e, cis_add]
      simp only [move]
      ring

theorem arg_cis_le (x : ℝ) : |arg (cis x)| ≤ |x| := by
  by_cases h : |x| < Real.pi
  · rw [abs_lt] at h
    rw [cis_eq_exp, Complex.arg_exp_mul_I, (toIocMod_eq_self Real.two_pi_pos).2 ⟨h.1, by linarith [h.2]⟩]
  · exact (Complex.abs_arg_le_pi _).trans (not_lt.1 h)

/-- C88: between two configurations that are not close to each other, if a word leads to the target: the path is made of at most five paths of constant curvature, on the
minimal radius or straight, each one starting where the previous one ends; it starts at the initial configuration; it ends at the final one up to the length of the segments
that are not built, at most 5 times `precision` (exactly if `precision` is 0), and its length is the distance given by `distance::ReedsShepp` up to the same error.
Missing: close configurations (see `C88_still_counterexample`); that there is always a word is `C88_found`. -/
theorem C88_path_partial {interp : Cfg E W → Cfg E W → ℝ → Cfg E W} (hi : ∀ a b u, (interp a b u).o = lerp a.o b.o u) (wheel : ℝ → W) {zero precision rho extra : ℝ}
    (hp : 0 ≤ precision) (hp' : precision ≤ 1 / 10 ^ 5) (hr : 0 < rho) (he : 0 ≤ extra) {q0 q1 : Cfg E W} (h0 : q0.Unit) (h1 : q1.Unit) (ht : ¬Tiny rho q0 q1)
    (hc : ∃ c, c ∈ allCands zero (normXY rho q0 q1) (normH q0 q1) (normPhi q0 q1)) :
    ∃ ks D r u, rsPath interp wheel zero precision rho extra q0 q1 = some ks ∧ rsDist zero rho extra q0 q1 = some (D + extra) ∧ Chained q0 ks r ∧ ks ≠ [] ∧ ks.length ≤ 5 ∧
      (∀ K ∈ ks, K.Coherent ∧ K.t0 = 0 ∧ (K.curvature = 0 ∨ |K.curvature| = 1 / rho)) ∧
      ‖r.pose.1 - q1.pose.1‖ ≤ 5 * precision * (rho + D) ∧ ‖r.pose.2 - q1.pose.2‖ ≤ 5 * precision ∧
      r.o = lerp q0.o q1.o u ∧ u ≤ 1 ∧ D * (1 - u) ≤ 5 * rho * precision ∧
      driven ks = D * u ∧ totalLength ks = (D + extra) * u ∧ 0 < D := by
  obtain ⟨c, hc⟩ := hc
  have hh := cis_normPhi h0 h1
  obtain ⟨d, hd⟩ := Option.isSome_iff_exists.1 ((C88_choice zero rho _ _ _).2.2 ⟨c, hc⟩)
  obtain ⟨c', hc', e1, e2, e3⟩ := (C88_choice zero rho _ _ _).1 d hd
  obtain ⟨g1, g2, g3, g4⟩ := C88_candidates hh hc'
  rw [← e1, ← e2] at g1 g4
  rw [← e1] at g2
  rw [← e2] at e3 g3
  set w := (types d.typeId).zip d.lens with hw
  have hwl : (segs w).length = 5 := by simp [segs, hw, g2, g3]
  have hwl' : ((segs w).length : ℝ) = 5 := by rw [hwl]; norm_num
  have hsw : segs w = word d.typeId d.lens := segs_word _ _
  have hl : wlen (segs w) = l1 d.lens := l1_wlen _ _ (g2.trans g3.symm)
  have hk : ∀ s ∈ segs w, |s.1| ≤ 1 := by
    intro s hs
    obtain ⟨x, _, rfl⟩ := List.mem_map.1 hs
    exact curv_le _
  obtain ⟨k1, k2⟩ := kept_wlen hp (segs w)
  obtain ⟨k3, k4⟩ := kept_close hp (segs w) hk start start (by simp [start])
  rw [hsw, g1, ← hsw] at k3 k4
  rw [hwl'] at k2 k3 k4
  simp only [sub_self, norm_zero, zero_mul, zero_add] at k3 k4
  -- the target is not close
  have hbig : 1 / 10 ^ 4 / 2 < wlen (segs w) := by
    by_contra hcon
    have hcon := not_lt.1 hcon
    refine ht ?_
    unfold Tiny
    have n1 := norm_run_le (segs w) start
    rw [hsw, g1, ← hsw] at n1
    simp only [start, sub_zero, norm_one, one_mul] at n1
    obtain ⟨x, hx, ex⟩ := turned (segs w) hk start
    rw [hsw, g1] at ex
    simp only [start, one_mul] at ex
    have n2 : |normPhi q0 q1| ≤ wlen (segs w) := by
      have : normPhi q0 q1 = arg (normH q0 q1) := rfl
      rw [this, ex]
      exact (arg_cis_le x).trans hx
    have s1 : (normXY rho q0 q1).re * (normXY rho q0 q1).re + (normXY rho q0 q1).im * (normXY rho q0 q1).im = ‖normXY rho q0 q1‖ ^ 2 := by
      rw [Complex.sq_norm, Complex.normSq_apply]
    have s2 : normPhi q0 q1 * normPhi q0 q1 = |normPhi q0 q1| ^ 2 := by rw [sq_abs, sq]
    rw [s1, s2]
    have t1 : ‖normXY rho q0 q1‖ ^ 2 ≤ (1 / 10 ^ 4 / 2) ^ 2 := pow_le_pow_left₀ (norm_nonneg _) (n1.trans hcon) 2
    have t2 : |normPhi q0 q1| ^ 2 ≤ (1 / 10 ^ 4 / 2) ^ 2 := pow_le_pow_left₀ (abs_nonneg _) (n2.trans hcon) 2
    norm_num at t1 t2 ⊢
    linarith
  have hLpos : 0 < d.rsLength := by
    rw [e3, ← hl]
    have : 0 < wlen (segs w) := lt_trans (by norm_num) hbig
    positivity
  have hDe : d.rsLength = rho * wlen (segs w) := by rw [e3, hl]
  have hne : kept precision (segs w) ≠ [] := by
    intro h
    rw [h] at k2
    simp only [wlen, List.map_nil, List.sum_nil, zero_add] at k2
    have : wlen (segs w) ≤ 5 * precision := k2
    have h6 : 5 * precision ≤ 1 / 10 ^ 4 / 2 := by
      have : (5 : ℝ) * (1 / 10 ^ 5) = 1 / 10 ^ 4 / 2 := by norm_num
      linarith
    linarith
  obtain ⟨r, r1, r2, r3, r4, _, r6⟩ := rsLoop_spec (interp := interp) (wheel := wheel) hp hr he hLpos q0 q1 w g4 0 q0
  obtain ⟨r7, r8⟩ := r6 hne
  have hrp : r.pose = unnorm q0.pose.1 rho (atan2 q0.s q0.c) (run (kept precision (segs w)) start) := by
    rw [r2, ← runS_unnorm hr, unnorm_start h0]
  have htp := unnorm_target (q1 := q1) h0 hr
  have hpath : rsPath interp wheel zero precision rho extra q0 q1 = some (rsLoop interp wheel precision rho extra d.rsLength q0 q1 w 0 q0) := by
    unfold rsPath; rw [if_neg ht, hd]; rfl
  have hdist : rsDist zero rho extra q0 q1 = some (d.rsLength + extra) := by
    unfold rsDist; rw [if_neg ht, hd]; rfl
  have hlen5 : ∀ (v : List (Turn × ℝ)) (s : ℝ) (q : Cfg E W), (rsLoop interp wheel precision rho extra d.rsLength q0 q1 v s q).length ≤ v.length := by
    intro v
    induction v with
    | nil => intro s q; exact le_rfl
    | cons a v ih =>
      intro s q
      obtain ⟨ty, x⟩ := a
      unfold rsLoop
      by_cases hcc : precision < |x|
      · rw [if_pos hcc]
        cases ty with
        | nop => exact Nat.zero_le _
        | L => exact Nat.succ_le_succ (ih _ _)
        | S => exact Nat.succ_le_succ (ih _ _)
        | R => exact Nat.succ_le_succ (ih _ _)
      · rw [if_neg hcc]
        exact (ih _ _).trans (Nat.le_succ _)
  refine ⟨_, d.rsLength, r, rho * wlen (kept precision (segs w)) / d.rsLength, hpath, hdist, r1, r7, ?_, fun K hK => ?_, ?_, ?_, ?_, ?_, ?_, ?_, ?_, hLpos⟩
  · refine (hlen5 w 0 q0).trans ?_
    have : w.length = 5 := by rw [← hwl]; simp [segs]
    rw [this]
  · obtain ⟨x1, x2, _, x4⟩ := r3 K hK
    exact ⟨x1, x2, x4⟩
  · rw [hrp, ← htp]
    have : (unnorm q0.pose.1 rho (atan2 q0.s q0.c) (run (kept precision (segs w)) start)).1 - (unnorm q0.pose.1 rho (atan2 q0.s q0.c) (normXY rho q0 q1, normH q0 q1)).1 =
        rho * cis (atan2 q0.s q0.c) * ((run (kept precision (segs w)) start).1 - normXY rho q0 q1) := by
      simp only [unnorm]; ring
    rw [this, norm_mul, norm_mul, norm_cis, mul_one, Complex.norm_real, Real.norm_eq_abs, abs_of_pos hr, hDe]
    have := mul_le_mul_of_nonneg_left k3 hr.le
    linarith
  · rw [hrp, ← htp]
    have : (unnorm q0.pose.1 rho (atan2 q0.s q0.c) (run (kept precision (segs w)) start)).2 - (unnorm q0.pose.1 rho (atan2 q0.s q0.c) (normXY rho q0 q1, normH q0 q1)).2 =
        cis (atan2 q0.s q0.c) * ((run (kept precision (segs w)) start).2 - normH q0 q1) := by
      simp only [unnorm]; ring
    rw [this, norm_mul, norm_cis, one_mul]
    exact k4
  · rw [r8, hi, zero_add]
  · rw [div_le_one hLpos, hDe]
    exact mul_le_mul_of_nonneg_left k1 hr.le
  · rw [mul_sub, mul_one, mul_div_cancel₀ _ hLpos.ne', hDe, ← mul_sub]
    have := mul_le_mul_of_nonneg_left k2 hr.le
    linarith
  · rw [r4, mul_div_cancel₀ _ hLpos.ne']
  · have : totalLength (rsLoop interp wheel precision rho extra d.rsLength q0 q1 w 0 q0) = driven (rsLoop interp wheel precision rho extra d.rsLength q0 q1 w 0 q0) * (1 + extra / d.rsLength) := by
      unfold totalLength driven
      rw [← List.sum_map_mul_right]
      congr 1
      refine List.map_congr_left fun K hK => ?_
      obtain ⟨_, x2, x3, _⟩ := r3 K hK
      rw [x2, x3, sub_zero]
    rw [this, r4]
    field_simp

/-! ## Close targets: a word is found -/

theorem mod2pi_of_abs {x : ℝ} (h : |x| ≤ Real.pi) : mod2pi x = x := by
  have hpi := Real.pi_pos
  rw [abs_le] at h
  have ht : trunc (x / (2 * Real.pi)) = 0 := by
    unfold trunc
    split
    · rename_i h0
      rw [Int.floor_eq_zero_iff]
      refine ⟨h0, ?_⟩
      rw [div_lt_one (by positivity)]; linarith
    · rename_i h0
      rw [Int.ceil_eq_zero_iff]
      refine ⟨?_, (not_le.1 h0).le⟩
      rw [lt_div_iff₀ (by positivity)]; linarith
  have hf : fmod2pi x = x := by unfold fmod2pi; rw [ht]; simp
  unfold mod2pi
  simp only
  rw [hf, if_neg (not_lt.2 h.1), if_neg (not_lt.2 h.2)]

theorem mod2pi_of_sin {y : ℝ} (h : 0 < Real.sin y) : 0 ≤ mod2pi y := by
  by_contra hc
  have hc := not_le.1 hc
  have e : Real.sin (mod2pi y) = Real.sin y := by have := (Complex.ext_iff.1 (cis_mod2pi y)).2; simpa only [cis] using this
  have := Real.sin_nonpos_of_nonpos_of_neg_pi_le hc.le (abs_le.1 (mod2pi_abs y)).1
  linarith

theorem LpRmL_some {zero : ℝ} (hz : 0 ≤ zero) {z h : ℂ} (phi : ℝ) (hn : ‖z - I + I * h‖ ≤ 4)
    (ht : 0 ≤ mod2pi (arg (z - I + I * h) + 1 / 2 * (-2 * Real.arcsin (1 / 4 * ‖z - I + I * h‖)) + Real.pi)) : ∃ l, LpRmL zero z h phi = some l := by
  unfold LpRmL
  simp only
  rw [polarR_norm]
  unfold atan2
  rw [zeta_minus, if_pos hn, if_pos]
  · exact ⟨_, rfl⟩
  · refine ⟨by linarith, ?_⟩
    have : 0 ≤ Real.arcsin (1 / 4 * ‖z - I + I * h‖) := Real.arcsin_nonneg.2 (by positivity)
    linarith

theorem near_found {zero : ℝ} (hz : 0 ≤ zero) {z h : ℂ} (phi : ℝ) (hn : ‖z - I + I * h‖ ≤ 4) (hi : (z - I + I * h).im ≤ 0) :
    (∃ l, LpRmL zero z h phi = some l) ∨ ∃ l, LpRmL zero (oneMP z) (onePM h) (-phi) = some l := by
  have hT : oneMP z - I + I * onePM h = -(starRingEnd ℂ) (z - I + I * h) := by
    rw [oneMP_eq, onePM_eq]; simp; ring
  have hTn : ‖oneMP z - I + I * onePM h‖ = ‖z - I + I * h‖ := by rw [hT, norm_neg, Complex.norm_conj]
  have d1 := LpRmL_some hz phi hn
  have d2 := LpRmL_some (z := oneMP z) (h := onePM h) hz (-phi) (by rw [hTn]; exact hn)
  rw [hTn, hT] at d2
  have e2 := eq_norm_cis (-(starRingEnd ℂ) (z - I + I * h))
  rw [norm_neg, Complex.norm_conj] at e2
  generalize z - I + I * h = ζ at *
  have hr := norm_nonneg ζ
  by_cases h0 : ζ = 0
  · left
    refine d1 ?_
    rw [h0]
    simp only [arg_zero, norm_zero, mul_zero, Real.arcsin_zero, zero_add]
    rw [mod2pi_of_abs (abs_of_pos Real.pi_pos).le]
    exact Real.pi_pos.le
  · have hpos : 0 < ‖ζ‖ := norm_pos_iff.2 h0
    have s1 : ζ.im = ‖ζ‖ * Real.sin (arg ζ) := by simp
    have s2 : ζ.re = ‖ζ‖ * Real.cos (arg ζ) := by simp
    have s3 : ζ.im = ‖ζ‖ * Real.sin (arg (-(starRingEnd ℂ) ζ)) := by have := (Complex.ext_iff.1 e2).2; simpa [cis, -ofReal_sin, -ofReal_cos] using this
    have s4 : -ζ.re = ‖ζ‖ * Real.cos (arg (-(starRingEnd ℂ) ζ)) := by have := (Complex.ext_iff.1 e2).1; simpa [cis, -ofReal_sin, -ofReal_cos] using this
    have t1 : Real.sin (arg (-(starRingEnd ℂ) ζ)) = Real.sin (arg ζ) := mul_left_cancel₀ hpos.ne' (by rw [← s3, s1])
    have t2 : Real.cos (arg (-(starRingEnd ℂ) ζ)) = -Real.cos (arg ζ) := mul_left_cancel₀ hpos.ne' (by rw [← s4, s2]; ring)
    have hs : Real.sin (Real.arcsin (1 / 4 * ‖ζ‖)) = 1 / 4 * ‖ζ‖ := Real.sin_arcsin (by linarith) (by linarith)
    have hcc : 0 ≤ Real.cos (Real.arcsin (1 / 4 * ‖ζ‖)) := Real.cos_arcsin_nonneg _
    have hsq := Real.sin_sq_add_cos_sq (Real.arcsin (1 / 4 * ‖ζ‖))
    have hq := Real.sin_sq_add_cos_sq (arg ζ)
    generalize Real.arcsin (1 / 4 * ‖ζ‖) = al at *
    have hθ : Real.sin (arg ζ) ≤ 0 := by
      by_contra hcon
      have := mul_pos hpos (not_le.1 hcon)
      linarith
    have u1 : Real.sin (arg ζ + 1 / 2 * (-2 * al) + Real.pi) = Real.sin al * Real.cos (arg ζ) - Real.cos al * Real.sin (arg ζ) := by
      rw [Real.sin_add_pi, show arg ζ + 1 / 2 * (-2 * al) = arg ζ - al by ring, Real.sin_sub]; ring
    have u2 : Real.sin (arg (-(starRingEnd ℂ) ζ) + 1 / 2 * (-2 * al) + Real.pi) = -Real.cos (arg ζ) * Real.sin al - Real.cos al * Real.sin (arg ζ) := by
      rw [Real.sin_add_pi, show arg (-(starRingEnd ℂ) ζ) + 1 / 2 * (-2 * al) = arg (-(starRingEnd ℂ) ζ) - al by ring, Real.sin_sub, t1, t2]; ring
    have hsal : 0 < Real.sin al := by rw [hs]; positivity
    by_cases c1 : 0 < Real.sin al * Real.cos (arg ζ) - Real.cos al * Real.sin (arg ζ)
    · left; exact d1 (mod2pi_of_sin (by rw [u1]; exact c1))
    · by_cases c2 : 0 < -Real.cos (arg ζ) * Real.sin al - Real.cos al * Real.sin (arg ζ)
      · right; exact d2 (mod2pi_of_sin (by rw [u2]; exact c2))
      · left
        have c1 := not_lt.1 c1
        have c2 := not_lt.1 c2
        have hprod : 0 ≤ -(Real.cos al * Real.sin (arg ζ)) := by nlinarith
        have z1 : Real.sin al * Real.cos (arg ζ) = 0 := by nlinarith
        have z2 : Real.cos al * Real.sin (arg ζ) = 0 := by nlinarith
        have cz : Real.cos (arg ζ) = 0 := by
          rcases mul_eq_zero.1 z1 with h | h
          · exact absurd h hsal.ne'
          · exact h
        have sz : Real.sin (arg ζ) = -1 := by
          rw [cz] at hq
          have hf : (Real.sin (arg ζ) - 1) * (Real.sin (arg ζ) + 1) = 0 := by linear_combination hq
          rcases mul_eq_zero.1 hf with h | h
          · linarith
          · linarith
        have ca : Real.cos al = 0 := by rw [sz] at z2; linarith
        have sa : Real.sin al = 1 := by
          rw [ca] at hsq
          have hf : (Real.sin al - 1) * (Real.sin al + 1) = 0 := by linear_combination hsq
          rcases mul_eq_zero.1 hf with h | h
          · linarith
          · linarith
        refine d1 ?_
        have e : cis (arg ζ + 1 / 2 * (-2 * al) + Real.pi) = 1 := by
          rw [cis_pi, show arg ζ + 1 / 2 * (-2 * al) = arg ζ + -al by ring]
          unfold cis
          rw [Real.cos_add, Real.sin_add, Real.cos_neg, Real.sin_neg, cz, sz, ca, sa, Complex.ext_iff]
          simp
        have em := cis_mod2pi (arg ζ + 1 / 2 * (-2 * al) + Real.pi)
        rw [e] at em
        have ha := mod2pi_abs (arg ζ + 1 / 2 * (-2 * al) + Real.pi)
        generalize mod2pi (arg ζ + 1 / 2 * (-2 * al) + Real.pi) = y at *
        rw [abs_le] at ha
        by_contra hneg
        have hneg := not_le.1 hneg
        have hcy : Real.cos y = 1 := by have := (Complex.ext_iff.1 em).1; simpa only [cis, one_re] using this
        have hpi := Real.pi_pos
        rw [Real.cos_eq_one_iff_of_lt_of_lt (by linarith) (by linarith)] at hcy
        linarith

/-- C88: a word is found for all the targets that are close to the initial pose: those the centers of the circles of which are at a distance at most 4 radiuses from the
centers of the initial circles of the same side (in particular, at a distance at most 2 radiuses). -/
theorem C88_near_found {zero : ℝ} (hz : 0 ≤ zero) (rho : ℝ) {z h : ℂ} {phi : ℝ} (hh : cis phi = h) (hl : ‖z - I + I * h‖ ≤ 4) (hr : ‖z + I - I * h‖ ≤ 4) :
    ∃ d, rsBest zero rho z h phi = some d := by
  refine Option.isSome_iff_exists.1 ((C88_choice zero rho z h phi).2.2 ?_)
  have key : ∀ (k : ℕ) (c : Cand), (candCCC zero z h phi)[k]? = some (some c) → c ∈ allCands zero z h phi := by
    intro k c hk
    exact mem_all.2 ⟨(0, candCCC zero z h phi), by simp [families], List.mem_of_getElem? hk⟩
  by_cases hi : (z - I + I * h).im ≤ 0
  · rcases near_found hz phi hl hi with ⟨l, hl⟩ | ⟨l, hl⟩
    · exact ⟨_, key 0 _ (by simp only [candCCC, four, hl]; rfl)⟩
    · exact ⟨_, key 1 _ (by simp only [candCCC, four, hl]; rfl)⟩
  · have hi := not_le.1 hi
    have hR : onePM z - I + I * onePM h = (starRingEnd ℂ) (z + I - I * h) := by
      rw [onePM_eq, onePM_eq]; simp [sub_eq_add_neg]
    have hc : h.re ≤ 1 := by
      rw [← hh]; exact Real.cos_le_one phi
    have him : (onePM z - I + I * onePM h).im ≤ 0 := by
      rw [hR]
      simp at hi ⊢
      linarith
    rcases near_found hz (-phi) (z := onePM z) (h := onePM h) (by rw [hR, Complex.norm_conj]; exact hr) him with ⟨l, hl⟩ | ⟨l, hl⟩
    · exact ⟨_, key 2 _ (by simp only [candCCC, four, hl]; rfl)⟩
    · have e1 : oneMP (onePM z) = -z := by rw [oneMP_eq, onePM_eq]; simp
      have e2 : onePM (onePM h) = h := by rw [onePM_eq, onePM_eq]; simp
      rw [e1, e2, neg_neg] at hl
      exact ⟨_, key 3 _ (by simp only [candCCC, four, hl]; rfl)⟩

/-! ## Radius other than 1 -/

theorem straight_found {zero : ℝ} (hz : 0 ≤ zero) : LpSpLp zero 1 1 0 = some ⟨0, 1, 0⟩ := by
  have e1 : polarR ((1 : ℂ).re - (1 : ℂ).im) ((1 : ℂ).im - 1 + (1 : ℂ).re) = 1 := by simp [polarR]
  have e2 : atan2 ((1 : ℂ).im - 1 + (1 : ℂ).re) ((1 : ℂ).re - (1 : ℂ).im) = 0 := by
    unfold atan2
    have : (⟨(1 : ℂ).re - (1 : ℂ).im, (1 : ℂ).im - 1 + (1 : ℂ).re⟩ : ℂ) = 1 := by rw [Complex.ext_iff]; simp
    rw [this, arg_one]
  have e3 : mod2pi (0 - 0) = 0 := by rw [sub_zero]; exact mod2pi_of_abs (by rw [abs_zero]; exact Real.pi_pos.le)
  unfold LpSpLp
  simp only
  rw [e1, e2, e3, if_pos (by linarith), if_pos (by linarith)]

theorem turns_found {zero : ℝ} (hz : 0 ≤ zero) : ∃ l, LpRmL zero 1 1 0 = some l ∧ sumAbs l < 10 := by
  have hone : (1 : ℂ) - I + I * 1 = 1 := by ring
  obtain ⟨l, hl⟩ := LpRmL_some (z := 1) (h := 1) hz 0 (by rw [hone]; simp) (by
    rw [hone]
    refine mod2pi_of_sin ?_
    simp only [arg_one, zero_add, norm_one, mul_one]
    rw [Real.sin_add_pi, show 1 / 2 * (-2 * Real.arcsin (1 / 4)) = -Real.arcsin (1 / 4) by ring, Real.sin_neg, neg_neg, Real.sin_arcsin (by norm_num) (by norm_num)]
    norm_num)
  refine ⟨l, hl, ?_⟩
  unfold LpRmL at hl
  simp only at hl
  split at hl
  · split at hl
    · cases hl
      unfold sumAbs
      simp only
      generalize polarR ((1 : ℂ).re - (1 : ℂ).im) ((1 : ℂ).im - 1 + (1 : ℂ).re) = r
      have h1 := mod2pi_abs (atan2 ((1 : ℂ).im - 1 + (1 : ℂ).re) ((1 : ℂ).re - (1 : ℂ).im) + 1 / 2 * (-2 * Real.arcsin (1 / 4 * r)) + Real.pi)
      have h2 := mod2pi_abs (0 - mod2pi (atan2 ((1 : ℂ).im - 1 + (1 : ℂ).re) ((1 : ℂ).re - (1 : ℂ).im) + 1 / 2 * (-2 * Real.arcsin (1 / 4 * r)) + Real.pi) + -2 * Real.arcsin (1 / 4 * r))
      have h3 : |-2 * Real.arcsin (1 / 4 * r)| ≤ Real.pi := by
        have a := Real.neg_pi_div_two_le_arcsin (1 / 4 * r)
        have b := Real.arcsin_le_pi_div_two (1 / 4 * r)
        rw [abs_le]; constructor <;> linarith
      have := Real.pi_lt_d2
      linarith
    · cases hl
  · cases hl

theorem four_type {f : ℂ → ℂ → ℝ → Option Lens} {id1 id2 : ℕ} {lens : Lens → List ℝ} {L : Lens → ℝ} {z h : ℂ} {phi : ℝ} {c : Cand}
    (hc : some c ∈ four f id1 id2 lens L z h phi) : (c.typeId = id1 ∨ c.typeId = id2) ∧ ∃ l, c.L = L l := by
  unfold four at hc
  simp only [List.mem_cons, List.not_mem_nil, or_false] at hc
  rcases hc with hc | hc | hc | hc <;> obtain ⟨l, _, e⟩ := Option.map_eq_some_iff.1 hc.symm <;> rw [← e]
  · exact ⟨Or.inl rfl, l, rfl⟩
  · exact ⟨Or.inl rfl, l, rfl⟩
  · exact ⟨Or.inr rfl, l, rfl⟩
  · exact ⟨Or.inr rfl, l, rfl⟩

theorem sumAbs_nonneg (l : Lens) : 0 ≤ sumAbs l := by unfold sumAbs; positivity

/-- A word made of turns only is longer than the distance it covers. -/
theorem turns_long {id : ℕ} {lens : List ℝ} (hid : ∀ t ∈ types id, t ≠ .S) (hn : Nops (types id) lens) (h5 : (types id).length = lens.length)
    (h : run (word id lens) start = (1, 1)) : 1 < l1 lens := by
  have hl := l1_wlen (types id) lens h5
  have hne : wlen (word id lens) ≠ 0 := by
    intro h0
    have := norm_run_le (word id lens) start
    rw [h, h0] at this
    simp [start] at this
    linarith
  have := norm_run_lt (word id lens) (fun s hs => by
    rw [← segs_word] at hs
    obtain ⟨x, hx, rfl⟩ := List.mem_map.1 hs
    have h1 := hid x.1 (List.of_mem_zip hx).1
    have h2 := hn x hx
    simp only
    cases hx1 : x.1 with
    | nop => right; exact h2 hx1
    | L => left; simp [Turn.curv]
    | S => exact absurd hx1 h1
    | R => left; simp [Turn.curv]) start (by simp [start]) hne
  rw [h] at this
  simp only [start, sub_zero, norm_one, one_mul] at this
  rw [← hl, segs_word]
  exact this

theorem not_straight {zero : ℝ} {f : ℝ × List (Option Cand)} (hf : f ∈ (families zero 1 1 0).tail) {c : Cand} (hc : some c ∈ f.2) : 1 < l1 c.lens := by
  have hg : c.Good 1 1 f.1 := families_good (zero := zero) (phi := 0) (by rw [cis_zero]) (List.mem_of_mem_tail hf) hc
  have hpi := Real.pi_gt_three
  obtain ⟨g1, g2, g3, g4, g5⟩ := hg
  have tl : ∀ id, c.typeId = id → (∀ t ∈ types id, t ≠ .S) → 1 < l1 c.lens := fun id hid ht => turns_long (by rw [hid]; exact ht) g5 (g3.trans g4.symm) g1
  have off : ∀ {g : ℂ → ℂ → ℝ → Option Lens} {id1 id2 : ℕ} {lens : Lens → List ℝ} {z : ℂ}, some c ∈ four g id1 id2 lens sumAbs z 1 0 → 1 < f.1 → 1 < l1 c.lens := by
    intro g id1 id2 lens z hc h1
    obtain ⟨_, l, e⟩ := four_type hc
    rw [g2, e]
    linarith [sumAbs_nonneg l]
  simp only [families, List.tail_cons, List.mem_cons, List.not_mem_nil, or_false] at hf
  rcases hf with rfl | rfl | rfl | rfl
  · rcases List.mem_append.1 hc with hc | hc
    · rcases (four_type hc).1 with h | h
      · exact tl 0 h (by simp [types])
      · exact tl 1 h (by simp [types])
    · rcases (four_type hc).1 with h | h
      · exact tl 0 h (by simp [types])
      · exact tl 1 h (by simp [types])
  · rcases List.mem_append.1 hc with hc | hc
    · rcases (four_type hc).1 with h | h
      · exact tl 2 h (by simp [types])
      · exact tl 3 h (by simp [types])
    · rcases (four_type hc).1 with h | h
      · exact tl 2 h (by simp [types])
      · exact tl 3 h (by simp [types])
  · rcases List.mem_append.1 hc with hc | hc
    · rcases List.mem_append.1 hc with hc | hc
      · rcases List.mem_append.1 hc with hc | hc
        · exact off hc (by simp only; linarith)
        · exact off hc (by simp only; linarith)
      · exact off hc (by simp only; linarith)
    · exact off hc (by simp only; linarith)
  · exact off hc (by simp only; linarith)

/-- C88: the word chosen is not the shortest when the radius is not 1: with the radius 10 and a target 10 straight ahead, the straight line is one of the words, and the
car is nevertheless driven along a longer word, with turns (the lengths divided by the radius are compared with a length that is not). -/
theorem C88_shortest_counterexample {zero : ℝ} (hz : 0 ≤ zero) :
    (∃ c ∈ allCands zero 1 1 0, run (word c.typeId c.lens) start = (1, 1) ∧ l1 c.lens = 1) ∧ ∃ d, rsBest zero 10 1 1 0 = some d ∧ 1 < l1 d.lens := by
  have hs := straight_found hz
  constructor
  · have hc : (⟨14, [0, 1, 0, 0, 0], sumAbs ⟨0, 1, 0⟩⟩ : Cand) ∈ allCands zero 1 1 0 := by
      refine mem_all.2 ⟨(0, candCSC zero 1 1 0), by simp [families], ?_⟩
      refine List.mem_of_getElem? (i := 0) ?_
      simp only [candCSC, four, hs]; rfl
    exact ⟨_, hc, (C88_candidates (by rw [cis_zero]) hc).1, by simp [l1]⟩
  · obtain ⟨l, hl, hlt⟩ := turns_found hz
    -- the words with a line
    have h1 : ∀ d, family 10 0 (candCSC zero 1 1 0) none = some d → 10 ≤ d.rsLength := by
      intro d hd
      rcases fam_from 10 (candCSC zero 1 1 0) (none, none) with e | ⟨c, hc, e⟩
      · unfold family at hd
        simp only [Option.map_none] at hd
        rw [e] at hd; cases hd
      · unfold family at hd
        simp only [Option.map_none] at hd
        rw [e] at hd
        cases hd
        obtain ⟨g1, g2, g3, g4, _⟩ := csc_good (phi := 0) (by rw [cis_zero]) hc
        have n := norm_run_le (word c.typeId c.lens) start
        have g1' : run (word c.typeId c.lens) start = (1, 1) := g1
        rw [g1', ← segs_word, l1_wlen _ _ (g3.trans g4.symm)] at n
        simp only [start, sub_zero, norm_one, one_mul] at n
        show 10 ≤ 10 * l1 c.lens
        linarith
    -- three turns
    have h2 : ∃ c, some c ∈ candCCC zero 1 1 0 ∧ family 10 0 (candCCC zero 1 1 0) (family 10 0 (candCSC zero 1 1 0) none) = some (setupPath 10 c) := by
      generalize family 10 0 (candCSC zero 1 1 0) none = d at h1
      obtain ⟨rest, hrest⟩ : ∃ rest, candCCC zero 1 1 0 = some ⟨0, [l.t, l.p, l.q, 0, 0], sumAbs l⟩ :: rest := by
        simp only [candCCC, four, hl]; exact ⟨_, rfl⟩
      rw [hrest]
      unfold family
      rw [List.foldl_cons]
      have hstep : (famStep 10 (d, d.map fun d => d.rsLength - 0) (some ⟨0, [l.t, l.p, l.q, 0, 0], sumAbs l⟩)).1 = some (setupPath 10 ⟨0, [l.t, l.p, l.q, 0, 0], sumAbs l⟩) := by
        unfold famStep
        cases d with
        | none => rfl
        | some d =>
          simp only [Option.map_some]
          rw [if_pos]
          have := h1 d rfl
          linarith
      rcases fam_from 10 rest (famStep 10 (d, d.map fun d => d.rsLength - 0) (some ⟨0, [l.t, l.p, l.q, 0, 0], sumAbs l⟩)) with e | ⟨c, hc, e⟩
      · exact ⟨_, List.mem_cons_self .., by rw [e, hstep]⟩
      · exact ⟨c, List.mem_cons_of_mem _ hc, e⟩
    obtain ⟨c, hc, e⟩ := h2
    have hb : rsBest zero 10 1 1 0 = ((families zero 1 1 0).tail.tail).foldl (fun d f => family 10 f.1 f.2 d) (some (setupPath 10 c)) := by
      rw [← e]; rfl
    rcases best_from 10 ((families zero 1 1 0).tail.tail) (some (setupPath 10 c)) with e' | ⟨f, hf, c', hc', e'⟩
    · exact ⟨_, hb.trans e', not_straight (zero := zero) (f := (0, candCCC zero 1 1 0)) (by simp [families]) hc⟩
    · exact ⟨_, hb.trans e', not_straight (List.mem_of_mem_tail hf) hc'⟩

/-! ## Targets that are too close -/

/-- C88: when the target is close with respect to the radius, the car does not move: with the radius 1000, a target 5 centimetres straight ahead is not reached. -/
theorem C88_still_counterexample (interp : Cfg ℝ Unit → Cfg ℝ Unit → ℝ → Cfg ℝ Unit) (zero precision : ℝ) :
    let q0 : Cfg ℝ Unit := ⟨0, 0, 1, 0, 0, ()⟩
    let q1 : Cfg ℝ Unit := ⟨1 / 20, 0, 1, 0, 1, ()⟩
    ∃ ks r, rsPath interp (fun _ => ()) zero precision 1000 1 q0 q1 = some ks ∧ Chained q0 ks r ∧ r.pose = q0.pose ∧ r.pose ≠ q1.pose := by
  intro q0 q1
  have ht : Tiny 1000 q0 q1 := by
    have e1 : normXY 1000 q0 q1 = ⟨1 / 20000, 0⟩ := by
      unfold normXY rotate
      rw [Complex.ext_iff]
      simp [q0, q1]
      norm_num
    have e2 : normPhi q0 q1 = 0 := by
      have : normH q0 q1 = 1 := by
        unfold normH rotate
        rw [Complex.ext_iff]
        simp [q0, q1]
      unfold normPhi atan2
      rw [this]
      have : (⟨(1 : ℂ).re, (1 : ℂ).im⟩ : ℂ) = 1 := rfl
      rw [this, arg_one]
    unfold Tiny
    rw [e1, e2]
    norm_num
  obtain ⟨_, _, _, _, _, c6, _⟩ := C85_create q0 q1 0 1 0 ()
  refine ⟨[CC.create q0 q1 0 1 0 ()], (CC.create q0 q1 0 1 0 ()).fin, by unfold rsPath; rw [if_pos ht], ⟨rfl, rfl⟩, ?_, ?_⟩
  · rw [(c6 one_ne_zero).1, move_zero]
  · rw [(c6 one_ne_zero).1, move_zero]
    intro h
    have := congrArg (fun p : Pose => p.1.re) h
    simp [Cfg.pose, q0, q1] at this

/-- C88: the steering method and the distance agree: on close configurations both only see the other degrees of freedom; otherwise the length of the path is the distance
up to the segments that are not built. -/
theorem C88_steer_partial {interp : Cfg E W → Cfg E W → ℝ → Cfg E W} (hi : ∀ a b u, (interp a b u).o = lerp a.o b.o u) (wheel : ℝ → W) {dist : Cfg E W → Cfg E W → ℝ}
    (hd : ∀ a b, 0 ≤ dist a b) {zero precision rho : ℝ} (hp : 0 ≤ precision) (hp' : precision ≤ 1 / 10 ^ 5) (hr : 0 < rho) {q0 q1 : Cfg E W} (h0 : q0.Unit) (h1 : q1.Unit)
    (hc : Tiny rho q0 q1 ∨ ∃ c, c ∈ allCands zero (normXY rho q0 q1) (normH q0 q1) (normPhi q0 q1)) :
    ∃ ks d, rsSteer interp wheel dist zero precision rho q0 q1 = some ks ∧ rsDistance dist zero rho q0 q1 = some d ∧ totalLength ks ≤ d ∧
      (Tiny rho q0 q1 → d = dist q0 (extraEnd q0 q1) ∧ totalLength ks = d) ∧
      (¬Tiny rho q0 q1 → ∃ D, 0 < D ∧ d = D + dist q0 (extraEnd q0 q1) ∧ D * (d - totalLength ks) ≤ 5 * rho * precision * d) := by
  have hex := hd q0 (extraEnd q0 q1)
  by_cases ht : Tiny rho q0 q1
  · obtain ⟨_, c2, c3, _⟩ := C85_create q0 q1 0 (dist q0 (extraEnd q0 q1)) 0 (wheel 0)
    have e : totalLength [CC.create q0 q1 0 (dist q0 (extraEnd q0 q1)) 0 (wheel 0)] = dist q0 (extraEnd q0 q1) := by
      simp only [totalLength, List.map_cons, List.map_nil, List.sum_cons, List.sum_nil, add_zero]
      rw [c2, c3, sub_zero, abs_of_nonneg hex]
    exact ⟨_, _, by unfold rsSteer rsPath; rw [if_pos ht], by unfold rsDistance rsDist; rw [if_pos ht], e.le, fun _ => ⟨rfl, e⟩, fun h => absurd ht h⟩
  · rcases hc with hc | hc
    · exact absurd hc ht
    · obtain ⟨ks, D, r, u, p1, p2, _, _, _, _, _, _, _, p8, p9, _, p11, p12⟩ := C88_path_partial hi wheel hp hp' hr hex h0 h1 ht hc
      refine ⟨ks, _, p1, p2, ?_, fun h => absurd h ht, fun _ => ⟨D, p12, rfl, ?_⟩⟩
      · rw [p11]
        nlinarith
      · rw [p11]
        have : D + dist q0 (extraEnd q0 q1) - (D + dist q0 (extraEnd q0 q1)) * u = (D + dist q0 (extraEnd q0 q1)) * (1 - u) := by ring
        rw [this]
        have h3 : 0 ≤ D + dist q0 (extraEnd q0 q1) := by linarith
        have := mul_le_mul_of_nonneg_left p9 h3
        linarith

/-- The hypotheses of `C88_path_partial` are met: a target at the distance 2 on the right, with the radius 1. -/
example : ∃ q0 q1 : Cfg ℝ Unit, q0.Unit ∧ q1.Unit ∧ ¬Tiny 1 q0 q1 ∧ ∃ c, c ∈ allCands 0 (normXY 1 q0 q1) (normH q0 q1) (normPhi q0 q1) := by
  refine ⟨⟨0, 0, 1, 0, 0, ()⟩, ⟨0, -2, 1, 0, 1, ()⟩, by simp [Cfg.Unit], by simp [Cfg.Unit], ?_, ?_⟩
  · have e1 : normXY 1 (⟨0, 0, 1, 0, 0, ()⟩ : Cfg ℝ Unit) ⟨0, -2, 1, 0, 1, ()⟩ = ⟨0, -2⟩ := by
      unfold normXY rotate; rw [Complex.ext_iff]; simp
    unfold Tiny
    rw [e1, not_lt]
    have := mul_self_nonneg (normPhi (⟨0, 0, 1, 0, 0, ()⟩ : Cfg ℝ Unit) ⟨0, -2, 1, 0, 1, ()⟩)
    norm_num at this ⊢
    linarith
  · have e1 : normXY 1 (⟨0, 0, 1, 0, 0, ()⟩ : Cfg ℝ Unit) ⟨0, -2, 1, 0, 1, ()⟩ = -2 * I := by
      unfold normXY rotate; rw [Complex.ext_iff]; simp
    have e2 : normH (⟨0, 0, 1, 0, 0, ()⟩ : Cfg ℝ Unit) ⟨0, -2, 1, 0, 1, ()⟩ = 1 := by
      unfold normH rotate; rw [Complex.ext_iff]; simp
    have h1 := cis_normPhi (q0 := (⟨0, 0, 1, 0, 0, ()⟩ : Cfg ℝ Unit)) (q1 := ⟨0, -2, 1, 0, 1, ()⟩) (by simp [Cfg.Unit]) (by simp [Cfg.Unit])
    have := C88_near_found (zero := 0) (z := normXY 1 (⟨0, 0, 1, 0, 0, ()⟩ : Cfg ℝ Unit) ⟨0, -2, 1, 0, 1, ()⟩) le_rfl 1 h1 (by
      rw [e1, e2, show -2 * I - I + I * 1 = -2 * I by ring, norm_mul, norm_neg, norm_I]; norm_num) (by
      rw [e1, e2, show -2 * I + I - I * 1 = -2 * I by ring, norm_mul, norm_neg, norm_I]; norm_num)
    exact (C88_choice 0 1 _ _ _).2.1 (Option.isSome_iff_exists.2 this)

end Verif.Car.RS
