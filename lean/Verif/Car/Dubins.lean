import Verif.Car.Words
set_option linter.unusedSectionVars false

/-!
# Paths of Dubins: `DubinsPath`, `steeringMethod::Dubins` (C87)

A path is a vector of three paths of constant curvature. Simplifications: those of `Car/Arc.lean`; exact arithmetic; the steering angle of the wheels is a function of the
curvature.
-/
namespace Verif.Car
open Complex

variable {E W : Type} [AddCommGroup E] [Module ℝ E]

/-- Outcomes of the construction other than a path. -/
inductive DErr
  /-- `std::logic_error`: dubins-path.cc:198 -/
  | logic
  /-- `0 / 0` in the lengths of the paths: dubins-path.cc:238 -/
  | nan

/-- `dubins_init`: dubins-path.cc:206-268. `interp` is `pinocchio::interpolate`, `wheel` is the value of the wheels for a curvature. -/
noncomputable def dubinsPath (interp : Cfg E W → Cfg E W → ℝ → Cfg E W) (wheel : ℝ → W) (rho extra : ℝ) (q0 q1 : Cfg E W) : Except DErr (List (CC E W)) :=
  let dx := q1.x - q0.x
  let dy := q1.y - q0.y
  let D := Real.sqrt (dx * dx + dy * dy)
  let d := D / rho
  let theta := mod2pi (atan2 dy dx)
  let alpha := mod2pi (atan2 q0.s q0.c - theta)
  let beta := mod2pi (atan2 q1.s q1.c - theta)
  match dubinsBest alpha beta d with
  | none => .error .logic
  | some (l, T) =>
    let L := l.t + l.p + l.q
    if L = 0 then .error .nan
    else
      let K1 := CC.create q0 (interp q0 q1 (l.t / L)) (rho * l.t) (rho * l.t + l.t / L * extra) (T.1.curv / rho) (wheel (T.1.curv / rho))
      let K2 := CC.create K1.fin (interp q0 q1 ((l.t + l.p) / L)) (rho * l.p) (rho * l.p + l.p / L * extra) (T.2.1.curv / rho) (wheel (T.2.1.curv / rho))
      let K3 := CC.create K2.fin q1 (rho * l.q) (rho * l.q + l.q / L * extra) (T.2.2.curv / rho) (wheel (T.2.2.curv / rho))
      .ok [K1, K2, K3]

/-- Configuration the extra length is computed with: steering-method/dubins.cc:41-49. -/
def extraEnd (q1 q2 : Cfg E W) : Cfg E W := { q2 with x := q1.x, y := q1.y, c := q1.c, s := q1.s, wheel := q1.wheel }

/-- `Dubins::impl_compute`: steering-method/dubins.cc:39-57. -/
noncomputable def dubinsSteer (interp : Cfg E W → Cfg E W → ℝ → Cfg E W) (wheel : ℝ → W) (dist : Cfg E W → Cfg E W → ℝ) (rho : ℝ) (q1 q2 : Cfg E W) :
    Except DErr (List (CC E W)) := dubinsPath interp wheel rho (dist q1 (extraEnd q1 q2)) q1 q2

/-! ## Specification -/

/-- Driving along three segments of radius `rho` and lengths `rho * l`. -/
noncomputable def drive (rho : ℝ) (T : Seg × Seg × Seg) (l : Lens) (p : Pose) : Pose :=
  move (T.2.2.curv / rho) (rho * l.q) (move (T.2.1.curv / rho) (rho * l.p) (move (T.1.curv / rho) (rho * l.t) p))

/-- Words of Dubins: two turns around a line, or three turns the middle one of which is between π and 2 π. -/
def DubinsWord (T : Seg × Seg × Seg) (l : Lens) : Prop :=
  0 ≤ l.t ∧ 0 ≤ l.p ∧ 0 ≤ l.q ∧
    ((T.1 ≠ .S ∧ T.2.1 = .S ∧ T.2.2 ≠ .S) ∨ ((T = (.R, .L, .R) ∨ T = (.L, .R, .L)) ∧ Real.pi ≤ l.p ∧ l.p < 2 * Real.pi))

/-! ## Change of frame -/

/-- The pose of a normalised pose. -/
noncomputable def unnorm (P : ℂ) (rho theta : ℝ) (p : Pose) : Pose := (P + rho * cis theta * p.1, cis theta * p.2)

theorem disp_scale {rho : ℝ} (hr : 0 < rho) (k t : ℝ) : disp (k / rho) (rho * t) = rho * disp k t := by
  unfold disp
  by_cases h : k = 0
  · simp only [h, zero_div, if_true]; rw [Complex.ext_iff]; simp
  · rw [if_neg (div_ne_zero h hr.ne'), if_neg h, show k / rho * (rho * t) = k * t by field_simp]
    rw [Complex.ext_iff]; simp
    constructor <;> field_simp

theorem unnorm_move {rho : ℝ} (hr : 0 < rho) (P : ℂ) (theta k t : ℝ) (p : Pose) :
    move (k / rho) (rho * t) (unnorm P rho theta p) = unnorm P rho theta (move k t p) := by
  unfold move unnorm
  rw [disp_scale hr, show k / rho * (rho * t) = k * t by field_simp]
  simp only [Prod.mk.injEq]
  constructor <;> ring

theorem unnorm_inj {rho : ℝ} (hr : 0 < rho) {P : ℂ} {theta : ℝ} {p q : Pose} (h : unnorm P rho theta p = unnorm P rho theta q) : p = q := by
  unfold unnorm at h
  simp only [Prod.mk.injEq] at h
  have hr' : (rho : ℂ) ≠ 0 := by exact_mod_cast hr.ne'
  exact Prod.ext (mul_left_cancel₀ (mul_ne_zero hr' (cis_ne_zero theta)) (add_left_cancel h.1)) (mul_left_cancel₀ (cis_ne_zero theta) h.2)

/-- Unit heading. -/
def Cfg.Unit (q : Cfg E W) : Prop := q.c ^ 2 + q.s ^ 2 = 1

theorem heading_cis {q : Cfg E W} (h : q.Unit) : cis (atan2 q.s q.c) = q.pose.2 := by
  have e := eq_norm_cis (⟨q.c, q.s⟩ : ℂ)
  have hn : ‖(⟨q.c, q.s⟩ : ℂ)‖ = 1 := by
    rw [Complex.norm_def, Complex.normSq_mk, Real.sqrt_eq_one]
    unfold Cfg.Unit at h; linarith
  rw [hn, ofReal_one, one_mul] at e
  exact e.symm

/-- Angles and distance of the normalised problem. -/
theorem normalised {rho : ℝ} (hr : 0 < rho) {q0 q1 : Cfg E W} (h0 : q0.Unit) (h1 : q1.Unit) :
    let theta := mod2pi (atan2 (q1.y - q0.y) (q1.x - q0.x))
    unnorm q0.pose.1 rho theta (0, cis (mod2pi (atan2 q0.s q0.c - theta))) = q0.pose ∧
    unnorm q0.pose.1 rho theta (((Real.sqrt ((q1.x - q0.x) * (q1.x - q0.x) + (q1.y - q0.y) * (q1.y - q0.y)) / rho : ℝ) : ℂ), cis (mod2pi (atan2 q1.s q1.c - theta))) = q1.pose := by
  intro theta
  have e := eq_norm_cis (⟨q1.x - q0.x, q1.y - q0.y⟩ : ℂ)
  have hn : ‖(⟨q1.x - q0.x, q1.y - q0.y⟩ : ℂ)‖ = Real.sqrt ((q1.x - q0.x) * (q1.x - q0.x) + (q1.y - q0.y) * (q1.y - q0.y)) := by
    rw [Complex.norm_def, Complex.normSq_mk]
  rw [hn] at e
  have ht : cis theta = cis (arg (⟨q1.x - q0.x, q1.y - q0.y⟩ : ℂ)) := cis_mod2pi _
  have hr' : (rho : ℂ) ≠ 0 := by exact_mod_cast hr.ne'
  have hd : (⟨q1.x - q0.x, q1.y - q0.y⟩ : ℂ) = q1.pose.1 - q0.pose.1 := by
    rw [Complex.ext_iff]; simp [Cfg.pose]
  unfold unnorm
  constructor
  · refine Prod.ext ?_ ?_
    · simp
    · show cis theta * cis (mod2pi _) = _
      rw [cis_mod2pi (_ - theta), ← cis_add, add_sub_cancel, heading_cis h0]
  · refine Prod.ext ?_ ?_
    · show q0.pose.1 + rho * cis theta * _ = _
      rw [ht]
      push_cast
      rw [show (rho : ℂ) * cis (arg (⟨q1.x - q0.x, q1.y - q0.y⟩ : ℂ)) * (Real.sqrt ((q1.x - q0.x) * (q1.x - q0.x) + (q1.y - q0.y) * (q1.y - q0.y)) / rho) =
        Real.sqrt ((q1.x - q0.x) * (q1.x - q0.x) + (q1.y - q0.y) * (q1.y - q0.y)) * cis (arg (⟨q1.x - q0.x, q1.y - q0.y⟩ : ℂ)) by field_simp]
      rw [← e, hd]; ring
    · show cis theta * cis (mod2pi _) = _
      rw [cis_mod2pi (_ - theta), ← cis_add, add_sub_cancel, heading_cis h1]

/-- Driving in the normalised frame. -/
theorem drive_iff {rho : ℝ} (hr : 0 < rho) {P : ℂ} {theta alpha beta d : ℝ} {p0 p1 : Pose} (h0 : unnorm P rho theta (0, cis alpha) = p0)
    (h1 : unnorm P rho theta ((d : ℂ), cis beta) = p1) (T : Seg × Seg × Seg) (l : Lens) : drive rho T l p0 = p1 ↔ Reaches T l alpha beta d := by
  unfold drive Reaches
  rw [← h0, ← h1, unnorm_move hr, unnorm_move hr, unnorm_move hr]
  exact ⟨fun h => unnorm_inj hr h, fun h => by rw [h]⟩

/-! ## The best word -/

/-- What is known of the best word among some. -/
def BestOf (alpha beta d : ℝ) (ws : List ((ℝ → ℝ → ℝ → Option Lens) × (Seg × Seg × Seg))) (b : Option (Lens × (Seg × Seg × Seg))) : Prop :=
  (∀ r, b = some r → ∃ w ∈ ws, w.1 alpha beta d = some r.1 ∧ w.2 = r.2) ∧ (∀ w ∈ ws, ∀ l, w.1 alpha beta d = some l → ∃ r, b = some r ∧ r.1.cost ≤ l.cost)

theorem best_step {alpha beta d : ℝ} {ws : List ((ℝ → ℝ → ℝ → Option Lens) × (Seg × Seg × Seg))} {b : Option (Lens × (Seg × Seg × Seg))}
    (h : BestOf alpha beta d ws b) (w : (ℝ → ℝ → ℝ → Option Lens) × (Seg × Seg × Seg)) : BestOf alpha beta d (ws ++ [w]) (dubinsStep alpha beta d b w) := by
  obtain ⟨h1, h2⟩ := h
  have mem : ∀ {v}, v ∈ ws → v ∈ ws ++ [w] := fun hv => List.mem_append.2 (Or.inl hv)
  have memw : w ∈ ws ++ [w] := List.mem_append.2 (Or.inr (List.mem_singleton.2 rfl))
  unfold dubinsStep
  cases hw : w.1 alpha beta d with
  | none =>
    refine ⟨fun r hr => ?_, fun v hv l hl => ?_⟩
    · obtain ⟨v, hv, e⟩ := h1 r hr; exact ⟨v, mem hv, e⟩
    · rcases List.mem_append.1 hv with hv | hv
      · exact h2 v hv l hl
      · rw [List.mem_singleton.1 hv, hw] at hl; cases hl
  | some lw =>
    cases hb : b with
    | none =>
      refine ⟨fun r hr => ?_, fun v hv l hl => ?_⟩
      · cases hr; exact ⟨w, memw, hw, rfl⟩
      · rcases List.mem_append.1 hv with hv | hv
        · obtain ⟨r, hr, _⟩ := h2 v hv l hl; rw [hb] at hr; cases hr
        · rw [List.mem_singleton.1 hv, hw] at hl; cases hl; exact ⟨_, rfl, le_rfl⟩
    | some b0 =>
      simp only
      by_cases hc : lw.cost < b0.1.cost
      · rw [if_pos hc]
        refine ⟨fun r hr => ?_, fun v hv l hl => ?_⟩
        · cases hr; exact ⟨w, memw, hw, rfl⟩
        · rcases List.mem_append.1 hv with hv | hv
          · obtain ⟨r, hr, hle⟩ := h2 v hv l hl; rw [hb] at hr; cases hr; exact ⟨_, rfl, hc.le.trans hle⟩
          · rw [List.mem_singleton.1 hv, hw] at hl; cases hl; exact ⟨_, rfl, le_rfl⟩
      · rw [if_neg hc]
        refine ⟨fun r hr => ?_, fun v hv l hl => ?_⟩
        · cases hr; obtain ⟨v, hv, e⟩ := h1 _ hb; exact ⟨v, mem hv, e⟩
        · rcases List.mem_append.1 hv with hv | hv
          · obtain ⟨r, hr, hle⟩ := h2 v hv l hl; rw [hb] at hr; cases hr; exact ⟨_, rfl, hle⟩
          · rw [List.mem_singleton.1 hv, hw] at hl; cases hl; exact ⟨_, rfl, not_lt.1 hc⟩

theorem best_fold {alpha beta d : ℝ} (vs : List ((ℝ → ℝ → ℝ → Option Lens) × (Seg × Seg × Seg))) {ws : List ((ℝ → ℝ → ℝ → Option Lens) × (Seg × Seg × Seg))}
    {b : Option (Lens × (Seg × Seg × Seg))} (h : BestOf alpha beta d ws b) : BestOf alpha beta d (ws ++ vs) (vs.foldl (dubinsStep alpha beta d) b) := by
  induction vs generalizing ws b with
  | nil => simpa using h
  | cons v vs ih =>
    have := ih (best_step h v)
    simpa using this

theorem best (alpha beta d : ℝ) : BestOf alpha beta d (dubinsWords.zip dirData) (dubinsBest alpha beta d) := by
  have h0 : BestOf alpha beta d [] none := ⟨fun r hr => (by cases hr), fun w hw => (by cases hw)⟩
  have := best_fold (dubinsWords.zip dirData) h0
  rwa [List.nil_append] at this

theorem word_reaches {w : (ℝ → ℝ → ℝ → Option Lens) × (Seg × Seg × Seg)} (hw : w ∈ dubinsWords.zip dirData) {alpha beta d : ℝ} {l : Lens} (h : w.1 alpha beta d = some l) :
    (0 ≤ l.t ∧ 0 ≤ l.p ∧ 0 ≤ l.q) ∧ Reaches w.2 l alpha beta d := by
  unfold Reaches
  simp only [dubinsWords, dirData, List.zip_cons_cons, List.zip_nil_right, List.mem_cons, List.not_mem_nil, or_false] at hw
  rcases hw with rfl | rfl | rfl | rfl | rfl | rfl
  · exact csc_reaches one_unit one_unit (by rw [← LSL_eq]; exact h)
  · exact csc_reaches one_unit neg_unit (by rw [← LSR_eq]; exact h)
  · exact csc_reaches neg_unit one_unit (by rw [← RSL_eq]; exact h)
  · exact csc_reaches neg_unit neg_unit (by rw [← RSR_eq]; exact h)
  · have := ccc_reaches neg_unit (by rw [← RLR_eq]; exact h)
    rw [neg_neg] at this
    exact this
  · exact ccc_reaches one_unit (by rw [← LRL_eq]; exact h)

theorem best_le {alpha beta d : ℝ} {f : ℝ → ℝ → ℝ → Option Lens} {T : Seg × Seg × Seg} (hw : (f, T) ∈ dubinsWords.zip dirData) {l : Lens} (hl : f alpha beta d = some l) :
    ∃ r, dubinsBest alpha beta d = some r ∧ r.1.cost ≤ l.cost := (best alpha beta d).2 (f, T) hw l hl

theorem mem_LSL : (dubinsLSL, (Seg.L, Seg.S, Seg.L)) ∈ dubinsWords.zip dirData := by simp [dubinsWords, dirData]
theorem mem_LSR : (dubinsLSR, (Seg.L, Seg.S, Seg.R)) ∈ dubinsWords.zip dirData := by simp [dubinsWords, dirData]
theorem mem_RSL : (dubinsRSL, (Seg.R, Seg.S, Seg.L)) ∈ dubinsWords.zip dirData := by simp [dubinsWords, dirData]
theorem mem_RSR : (dubinsRSR, (Seg.R, Seg.S, Seg.R)) ∈ dubinsWords.zip dirData := by simp [dubinsWords, dirData]
theorem mem_RLR : (dubinsRLR, (Seg.R, Seg.L, Seg.R)) ∈ dubinsWords.zip dirData := by simp [dubinsWords, dirData]
theorem mem_LRL : (dubinsLRL, (Seg.L, Seg.R, Seg.L)) ∈ dubinsWords.zip dirData := by simp [dubinsWords, dirData]

/-- A car that stays on its circle is driven by the word with another last turn. -/
theorem same_circle {e : ℝ} (he : e = 1 ∨ e = -1) {alpha beta d : ℝ} {l : Lens} (ht : 0 ≤ l.t) (hp : 0 ≤ l.p) (hq : 0 ≤ l.q) (hw : chord e e alpha beta d = 0)
    (h : move e l.q (move 0 l.p (move e l.t (0, cis alpha))) = ((d : ℂ), cis beta)) : ∃ b, csc e (-e) alpha beta d = some b ∧ b.cost ≤ l.cost := by
  have he' : -e = 1 ∨ -e = -1 := by rcases he with rfl | rfl <;> simp
  rw [csc_iff he he] at h
  obtain ⟨h1, h2⟩ := h
  have e2 : e * e = 1 := by rcases he with rfl | rfl <;> norm_num
  have hc : chord e (-e) alpha beta d = -2 * e * I * cis beta := by
    unfold chord at hw ⊢
    push_cast
    linear_combination hw
  have hne : chord e (-e) alpha beta d ≠ 0 := by
    rw [hc]
    have : (e : ℂ) ≠ 0 := by
      rcases he with rfl | rfl <;> norm_num
    have := cis_ne_zero beta
    simp_all
  obtain ⟨b, hb, b1, b2, b3⟩ := csc_shortest he he' (l := ⟨l.t + l.q, 0, 0⟩) (add_nonneg ht hq) le_rfl le_rfl hne (by
    rw [csc_iff he he']
    simp only
    refine ⟨by rw [mul_zero, add_zero, mul_add, ← add_assoc, h1], ?_⟩
    rw [mul_add, ← add_assoc, h1]
    show _ = chord e (-e) alpha beta d
    rw [hc]; push_cast; ring)
  refine ⟨b, hb, ?_⟩
  unfold Lens.cost
  simp only at b1 b2 b3
  linarith

/-- The best word is at least as short as any other way of driving to the target. -/
theorem best_shortest {alpha beta d : ℝ} {T : Seg × Seg × Seg} {l : Lens} (hT : DubinsWord T l) (h : Reaches T l alpha beta d) :
    ∃ r, dubinsBest alpha beta d = some r ∧ r.1.cost ≤ l.cost := by
  obtain ⟨ht, hp, hq, hT⟩ := hT
  have key : ∀ {e f : ℝ} {g : ℝ → ℝ → ℝ → Option Lens} {U : Seg × Seg × Seg}, (e = 1 ∨ e = -1) → (f = 1 ∨ f = -1) → (g, U) ∈ dubinsWords.zip dirData →
      (g alpha beta d = csc e f alpha beta d) → chord e f alpha beta d ≠ 0 → move f l.q (move 0 l.p (move e l.t (0, cis alpha))) = ((d : ℂ), cis beta) →
      ∃ r, dubinsBest alpha beta d = some r ∧ r.1.cost ≤ l.cost := by
    intro e f g U he hf hU hg hne hm
    obtain ⟨b, hb, b1, b2, b3⟩ := csc_shortest he hf ht hp hq hne hm
    obtain ⟨r, hr, hle⟩ := best_le hU (hg.trans hb)
    refine ⟨r, hr, hle.trans ?_⟩
    unfold Lens.cost; linarith
  have keyC : ∀ {e : ℝ} {g : ℝ → ℝ → ℝ → Option Lens} {U : Seg × Seg × Seg}, (e = 1 ∨ e = -1) → (g, U) ∈ dubinsWords.zip dirData →
      (g alpha beta d = ccc e alpha beta d) → Real.pi ≤ l.p → l.p < 2 * Real.pi → move e l.q (move (-e) l.p (move e l.t (0, cis alpha))) = ((d : ℂ), cis beta) →
      ∃ r, dubinsBest alpha beta d = some r ∧ r.1.cost ≤ l.cost := by
    intro e g U he hU hg p1 p2 hm
    obtain ⟨b, hb, b1, b2, b3⟩ := ccc_shortest he ht p1 p2 hq hm
    obtain ⟨r, hr, hle⟩ := best_le hU (hg.trans hb)
    refine ⟨r, hr, hle.trans ?_⟩
    unfold Lens.cost; linarith
  have nz : ∀ {e : ℝ}, (e = 1 ∨ e = -1) → move (-e) l.q (move 0 l.p (move e l.t (0, cis alpha))) = ((d : ℂ), cis beta) → chord e (-e) alpha beta d ≠ 0 := by
    intro e he hm h0
    have he' : -e = 1 ∨ -e = -1 := by rcases he with rfl | rfl <;> simp
    rw [csc_iff he he'] at hm
    have h2 : lineVec e (-e) l.p * cis (alpha + e * l.t) = chord e (-e) alpha beta d := by
      unfold lineVec chord; exact hm.2
    rw [h0] at h2
    have h3 : lineVec e (-e) l.p = 0 := by
      rcases mul_eq_zero.1 h2 with h | h
      · exact h
      · exact absurd h (cis_ne_zero _)
    have := congrArg Complex.im h3
    unfold lineVec at this
    rcases he with rfl | rfl <;> norm_num at this
  unfold Reaches at h
  obtain ⟨s1, s2, s3⟩ := T
  rcases hT with ⟨h1, h2, h3⟩ | ⟨hT, p1, p2⟩
  · simp only at h1 h2 h3
    subst h2
    cases s1 with
    | S => exact absurd rfl h1
    | L =>
      cases s3 with
      | S => exact absurd rfl h3
      | L =>
        by_cases hw : chord 1 1 alpha beta d = 0
        · obtain ⟨b, hb, hle⟩ := same_circle one_unit ht hp hq hw h
          obtain ⟨r, hr, hle'⟩ := best_le mem_LSR ((LSR_eq alpha beta d).trans hb)
          exact ⟨r, hr, hle'.trans hle⟩
        · exact key one_unit one_unit mem_LSL (LSL_eq _ _ _) hw h
      | R => exact key one_unit neg_unit mem_LSR (LSR_eq _ _ _) (nz one_unit h) h
    | R =>
      cases s3 with
      | S => exact absurd rfl h3
      | L => exact key neg_unit one_unit mem_RSL (RSL_eq _ _ _) (by have := nz neg_unit (by rw [neg_neg]; exact h); rwa [neg_neg] at this) h
      | R =>
        by_cases hw : chord (-1) (-1) alpha beta d = 0
        · obtain ⟨b, hb, hle⟩ := same_circle neg_unit ht hp hq hw h
          rw [neg_neg] at hb
          obtain ⟨r, hr, hle'⟩ := best_le mem_RSL ((RSL_eq alpha beta d).trans hb)
          exact ⟨r, hr, hle'.trans hle⟩
        · exact key neg_unit neg_unit mem_RSR (RSR_eq _ _ _) hw h
  · rcases hT with hT | hT
    · cases hT
      exact keyC neg_unit mem_RLR (RLR_eq _ _ _) p1 p2 (by rw [neg_neg]; exact h)
    · cases hT
      exact keyC one_unit mem_LRL (LRL_eq _ _ _) p1 p2 h

theorem best_some (alpha beta d : ℝ) : ∃ r, dubinsBest alpha beta d = some r := by
  have h : ∃ l, dubinsLSL alpha beta d = some l := by
    rw [LSL_eq]
    unfold csc
    rw [if_neg]
    · exact ⟨_, rfl⟩
    · unfold pSq
      have := sq_nonneg ‖chord 1 1 alpha beta d‖
      simp only [sub_self]
      linarith
  obtain ⟨l, hl⟩ := h
  obtain ⟨r, hr, _⟩ := best_le mem_LSL hl
  exact ⟨r, hr⟩

/-! ## The path -/

/-- The outcome of the construction in terms of the poses. -/
theorem dubins_best {rho : ℝ} (hr : 0 < rho) {q0 q1 : Cfg E W} (h0 : q0.Unit) (h1 : q1.Unit) (interp : Cfg E W → Cfg E W → ℝ → Cfg E W) (wheel : ℝ → W) (extra : ℝ) :
    ∃ (l : Lens) (T : Seg × Seg × Seg), (0 ≤ l.t ∧ 0 ≤ l.p ∧ 0 ≤ l.q) ∧ drive rho T l q0.pose = q1.pose ∧
      (∀ T' l', DubinsWord T' l' → drive rho T' l' q0.pose = q1.pose → l.cost ≤ l'.cost) ∧
      dubinsPath interp wheel rho extra q0 q1 =
        if l.cost = 0 then .error .nan
        else
          let K1 := CC.create q0 (interp q0 q1 (l.t / l.cost)) (rho * l.t) (rho * l.t + l.t / l.cost * extra) (T.1.curv / rho) (wheel (T.1.curv / rho))
          let K2 := CC.create K1.fin (interp q0 q1 ((l.t + l.p) / l.cost)) (rho * l.p) (rho * l.p + l.p / l.cost * extra) (T.2.1.curv / rho) (wheel (T.2.1.curv / rho))
          let K3 := CC.create K2.fin q1 (rho * l.q) (rho * l.q + l.q / l.cost * extra) (T.2.2.curv / rho) (wheel (T.2.2.curv / rho))
          .ok [K1, K2, K3] := by
  obtain ⟨n0, n1⟩ := normalised hr h0 h1
  unfold dubinsPath
  simp only
  generalize mod2pi (atan2 (q1.y - q0.y) (q1.x - q0.x)) = theta at *
  generalize mod2pi (atan2 q0.s q0.c - theta) = alpha at *
  generalize mod2pi (atan2 q1.s q1.c - theta) = beta at *
  generalize Real.sqrt ((q1.x - q0.x) * (q1.x - q0.x) + (q1.y - q0.y) * (q1.y - q0.y)) / rho = d at *
  obtain ⟨⟨l, T⟩, hb⟩ := best_some alpha beta d
  obtain ⟨w, hw, hl, hT⟩ := (best alpha beta d).1 _ hb
  obtain ⟨hn, hre⟩ := word_reaches hw hl
  rw [hT] at hre
  refine ⟨l, T, hn, (drive_iff hr n0 n1 T l).2 hre, fun T' l' hw' hd' => ?_, ?_⟩
  · obtain ⟨r, hr', hle⟩ := best_shortest hw' ((drive_iff hr n0 n1 T' l').1 hd')
    rw [hb] at hr'
    cases hr'
    exact hle
  · rw [hb]; rfl

/-- C87: the path of Dubins between two different poses is made of three paths of constant curvature, forward, on the minimal radius or straight, each one starting where the
previous one ends; it starts at the initial configuration and ends at the final one (up to the wheels), and its length is the distance driven plus the extra length; the
distance driven is the shortest among the words of Dubins; `C87_shortest` is about all the other curves. Missing: equal poses (`C87_still_counterexample`), wheels. -/
theorem C87_dubins_partial {rho extra : ℝ} (hr : 0 < rho) (he : 0 ≤ extra) {q0 q1 : Cfg E W} (h0 : q0.Unit) (h1 : q1.Unit) (hne : q0.pose ≠ q1.pose)
    {interp : Cfg E W → Cfg E W → ℝ → Cfg E W} (hi : ∀ a b u, (interp a b u).o = lerp a.o b.o u) (wheel : ℝ → W) :
    ∃ K1 K2 K3 : CC E W, dubinsPath interp wheel rho extra q0 q1 = .ok [K1, K2, K3] ∧ K1.init = q0 ∧ K2.init = K1.fin ∧ K3.init = K2.fin ∧ Same K3.fin q1 ∧
      (∀ K ∈ [K1, K2, K3], K.Coherent ∧ K.t0 = 0 ∧ 0 ≤ K.curveLength ∧ (K.curvature = 0 ∨ |K.curvature| = 1 / rho)) ∧
      K1.t1 + K2.t1 + K3.t1 = K1.curveLength + K2.curveLength + K3.curveLength + extra ∧
      ∀ T l, DubinsWord T l → drive rho T l q0.pose = q1.pose → K1.curveLength + K2.curveLength + K3.curveLength ≤ rho * l.cost := by
  obtain ⟨l, T, ⟨ht, hp, hq⟩, hd, hmin, hpath⟩ := dubins_best hr h0 h1 interp wheel extra
  have hL : l.cost ≠ 0 := by
    intro h
    unfold Lens.cost at h
    have t0 : l.t = 0 := by linarith
    have p0 : l.p = 0 := by linarith
    have q0' : l.q = 0 := by linarith
    unfold drive at hd
    rw [t0, p0, q0', mul_zero, move_zero, move_zero, move_zero] at hd
    exact hne hd
  have hLp : 0 < l.cost := lt_of_le_of_ne (by unfold Lens.cost; linarith) (Ne.symm hL)
  rw [if_neg hL] at hpath
  have curv : ∀ s : Seg, s.curv / rho = 0 ∨ |s.curv / rho| = 1 / rho := by
    intro s
    cases s
    · right; rw [Seg.curv, abs_of_pos (by positivity)]
    · left; simp [Seg.curv]
    · right; rw [Seg.curv, neg_div, abs_neg, abs_of_pos (by positivity)]
  have len : ∀ {x : ℝ}, 0 ≤ x → |rho * x + x / l.cost * extra| = rho * x + x / l.cost * extra := fun hx => abs_of_nonneg (by positivity)
  have lenz : ∀ {x : ℝ}, 0 ≤ x → (rho * x + x / l.cost * extra = 0 ↔ x = 0) := by
    intro x hx
    constructor
    · intro h
      have : 0 ≤ x / l.cost * extra := by positivity
      have h2 : 0 ≤ rho * x := by positivity
      have : rho * x = 0 := by linarith
      rcases mul_eq_zero.1 this with h | h
      · exact absurd h hr.ne'
      · exact h
    · rintro rfl; simp
  -- one piece
  have piece : ∀ (a b : Cfg E W) (x k : ℝ) (wv : W) (u : ℝ), 0 ≤ x → (x = 0 → b.o = a.o) →
      let K := CC.create a b (rho * x) (rho * x + x / l.cost * extra) k wv
      K.fin.pose = move k (rho * x) a.pose ∧ K.fin.o = b.o := by
    intro a b x k wv u hx hb K
    obtain ⟨_, _, _, _, _, hA, hB⟩ := C85_create a b (rho * x) (rho * x + x / l.cost * extra) k wv
    by_cases hx0 : x = 0
    · obtain ⟨p1, p2⟩ := hB ((lenz hx).2 hx0)
      refine ⟨?_, ?_⟩
      · show K.fin.pose = _
        rw [hx0, mul_zero, move_zero]; rw [← p1]
      · show K.fin.o = _
        rw [hb hx0, ← p2]
    · exact hA (fun h => hx0 ((lenz hx).1 h))
  set K1 := CC.create q0 (interp q0 q1 (l.t / l.cost)) (rho * l.t) (rho * l.t + l.t / l.cost * extra) (T.1.curv / rho) (wheel (T.1.curv / rho)) with hK1
  set K2 := CC.create K1.fin (interp q0 q1 ((l.t + l.p) / l.cost)) (rho * l.p) (rho * l.p + l.p / l.cost * extra) (T.2.1.curv / rho) (wheel (T.2.1.curv / rho)) with hK2
  set K3 := CC.create K2.fin q1 (rho * l.q) (rho * l.q + l.q / l.cost * extra) (T.2.2.curv / rho) (wheel (T.2.2.curv / rho)) with hK3
  obtain ⟨a1, b1⟩ := piece q0 (interp q0 q1 (l.t / l.cost)) l.t (T.1.curv / rho) (wheel (T.1.curv / rho)) 0 ht (fun h => by rw [hi, h]; simp [lerp])
  rw [← hK1] at a1 b1
  obtain ⟨a2, b2⟩ := piece K1.fin (interp q0 q1 ((l.t + l.p) / l.cost)) l.p (T.2.1.curv / rho) (wheel (T.2.1.curv / rho)) 0 hp (fun h => by rw [b1, hi, hi, h, add_zero])
  rw [← hK2] at a2 b2
  obtain ⟨a3, b3⟩ := piece K2.fin q1 l.q (T.2.2.curv / rho) (wheel (T.2.2.curv / rho)) 0 hq (fun h => by
    rw [b2, hi, show l.t + l.p = l.cost by unfold Lens.cost; rw [h, add_zero], div_self hL]; simp [lerp])
  rw [← hK3] at a3 b3
  refine ⟨K1, K2, K3, hpath, rfl, rfl, rfl, ⟨?_, b3⟩, ?_, ?_, ?_⟩
  · rw [a3, a2, a1]; exact hd
  · intro K hK
    simp only [List.mem_cons, List.not_mem_nil, or_false] at hK
    rcases hK with rfl | rfl | rfl
    · exact ⟨(C85_create _ _ _ _ _ _).1, rfl, mul_nonneg hr.le ht, curv _⟩
    · exact ⟨(C85_create _ _ _ _ _ _).1, rfl, mul_nonneg hr.le hp, curv _⟩
    · exact ⟨(C85_create _ _ _ _ _ _).1, rfl, mul_nonneg hr.le hq, curv _⟩
  · show |rho * l.t + l.t / l.cost * extra| + |rho * l.p + l.p / l.cost * extra| + |rho * l.q + l.q / l.cost * extra| = rho * l.t + rho * l.p + rho * l.q + extra
    rw [len ht, len hp, len hq]
    have : l.t / l.cost * extra + l.p / l.cost * extra + l.q / l.cost * extra = extra := by
      rw [← add_mul, ← add_mul, ← add_div, ← add_div]
      show l.cost / l.cost * extra = extra
      rw [div_self hL, one_mul]
    linarith
  · intro T' l' hw' hd'
    have := hmin T' l' hw' hd'
    show rho * l.t + rho * l.p + rho * l.q ≤ rho * l'.cost
    rw [← mul_add, ← mul_add]
    exact mul_le_mul_of_nonneg_left this hr.le

/-- C87: when the car does not move, the lengths of the path are 0 / 0, whatever the other degrees of freedom. -/
theorem C87_still_counterexample {rho : ℝ} (hr : 0 < rho) {q0 q1 : Cfg E W} (h0 : q0.Unit) (h1 : q1.Unit) (heq : q0.pose = q1.pose)
    (interp : Cfg E W → Cfg E W → ℝ → Cfg E W) (wheel : ℝ → W) (extra : ℝ) : dubinsPath interp wheel rho extra q0 q1 = .error .nan := by
  obtain ⟨l, T, ⟨ht, hp, hq⟩, hd, hmin, hpath⟩ := dubins_best hr h0 h1 interp wheel extra
  have hle := hmin (.L, .S, .L) ⟨0, 0, 0⟩ ⟨le_rfl, le_rfl, le_rfl, Or.inl ⟨by decide, rfl, by decide⟩⟩ (by
    unfold drive
    simp only [mul_zero, move_zero]
    exact heq)
  have : l.cost = 0 := le_antisymm (by simpa [Lens.cost] using hle) (by unfold Lens.cost; linarith)
  rw [hpath, if_pos this]

/-- C87: the steering method never throws; it returns a path between two different poses, with a length that takes the other degrees of freedom, and only them, into account. -/
theorem C87_steer {rho : ℝ} (hr : 0 < rho) {dist : Cfg E W → Cfg E W → ℝ} (hdist : ∀ a b, 0 ≤ dist a b) {q0 q1 : Cfg E W} (h0 : q0.Unit) (h1 : q1.Unit)
    {interp : Cfg E W → Cfg E W → ℝ → Cfg E W} (hi : ∀ a b u, (interp a b u).o = lerp a.o b.o u) (wheel : ℝ → W) :
    (q0.pose ≠ q1.pose → ∃ K1 K2 K3, dubinsSteer interp wheel dist rho q0 q1 = .ok [K1, K2, K3] ∧ K1.init = q0 ∧ Same K3.fin q1 ∧
      K1.t1 + K2.t1 + K3.t1 = K1.curveLength + K2.curveLength + K3.curveLength + dist q0 (extraEnd q0 q1)) ∧
    (∀ (f : Pose → Pose → ℝ) (w : W → W → ℝ) (g : E → E → ℝ), (∀ p, f p p = 0) → (∀ a, w a a = 0) →
      (∀ a b, dist a b = f a.pose b.pose + w a.wheel b.wheel + g a.o b.o) → dist q0 (extraEnd q0 q1) = g q0.o q1.o) ∧
    (q0.pose = q1.pose → dubinsSteer interp wheel dist rho q0 q1 = .error .nan) := by
  constructor
  · intro hne
    obtain ⟨K1, K2, K3, e, h1, _, _, h2, _, h3, _⟩ := C87_dubins_partial hr (hdist q0 (extraEnd q0 q1)) h0 h1 hne hi wheel
    exact ⟨K1, K2, K3, e, h1, h2, h3⟩
  refine ⟨fun f w g hf hw hd => ?_, ?_⟩
  · have e : (extraEnd q0 q1).pose = q0.pose := rfl
    rw [hd, e, hf, show (extraEnd q0 q1).wheel = q0.wheel from rfl, hw, zero_add, zero_add]
    rfl
  · intro heq
    exact C87_still_counterexample hr h0 h1 heq interp wheel _

example : ∃ q0 q1 : Cfg ℝ ℝ, q0.Unit ∧ q1.Unit ∧ q0.pose ≠ q1.pose :=
  ⟨⟨0, 0, 1, 0, 0, 0⟩, ⟨1, 2, 0, 1, 0, 0⟩, by simp [Cfg.Unit], by simp [Cfg.Unit], by simp [Cfg.pose]⟩

end Verif.Car
