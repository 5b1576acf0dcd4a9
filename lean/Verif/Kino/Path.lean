import Verif.Kino.FixedTime
set_option linter.unusedSectionVars false

/-!
# Kinodynamic paths: evaluation and extraction (C80, C81)

One translation degree of freedom.  The other joints are interpolated linearly and are not modelled; neither is the acceleration stored in the extra
configuration variables.
-/
namespace Verif.Kino

/-- A degree of freedom of a `KinodynamicPath`: kinodynamic-path.hh:207-208 and the end configurations of the straight path. -/
structure KP where
  p1 : ℝ
  v1 : ℝ
  p2 : ℝ
  v2 : ℝ
  len : ℝ
  a1 : ℝ
  t0 : ℝ
  t1 : ℝ
  tv : ℝ
  t2 : ℝ
  vLim : ℝ

/-- `KinodynamicPath::impl_compute`: kinodynamic-path.cc:173-260.  Position and velocity. -/
noncomputable def KP.eval (K : KP) (t : ℝ) : ℝ × ℝ :=
  if t = 0 ∨ K.len = 0 then (K.p1, K.v1)
  else if t = K.len then (K.p2, K.v2)
  else if t ≤ K.t0 then (K.p1 + t * K.v1, K.v1)
  else if t ≤ K.t0 + K.t1 then
    let t1 := t - K.t0
    (1 / 2 * t1 * t1 * K.a1 + t1 * K.v1 + K.p1 + K.t0 * K.v1, t1 * K.a1 + K.v1)
  else if t ≤ K.t0 + K.t1 + K.tv then
    let tv := t - K.t0 - K.t1
    (1 / 2 * K.t1 * K.t1 * K.a1 + K.t1 * K.v1 + K.p1 + K.t0 * K.v1 + tv * K.vLim, K.vLim)
  else if t ≤ K.t0 + K.t1 + K.tv + K.t2 then
    let t2 := t - K.tv - K.t1 - K.t0
    let v2 := if 0 < K.tv then K.vLim else K.t1 * K.a1 + K.v1
    (1 / 2 * K.t1 * K.t1 * K.a1 + K.t1 * K.v1 + K.p1 + K.t0 * K.v1 + K.tv * K.vLim - 1 / 2 * t2 * t2 * K.a1 + t2 * v2, v2 - t2 * K.a1)
  else (K.p2, K.v2)

/-- Result of an extraction: the same path or a kinodynamic path, a constant straight path of null length, or a null pointer. -/
inductive Ext where
  | kino (K : KP)
  | straight (x : ℝ × ℝ)
  | null

/-- Durations without the beginning of the path: kinodynamic-path.cc:331-352. -/
noncomputable def trimStart (ti t0 t1 tv t2 : ℝ) : ℝ × ℝ × ℝ × ℝ :=
  if t0 - ti ≤ 0 then
    let ti := ti - t0
    if t1 - ti ≤ 0 then
      let ti := ti - t1
      if tv - ti ≤ 0 then
        let ti := ti - tv
        if t2 - ti < 0 then (0, 0, 0, 0) else (0, 0, 0, t2 - ti)
      else (0, 0, tv - ti, t2)
    else (0, t1 - ti, tv, t2)
  else (t0 - ti, t1, tv, t2)

/-- Durations without the end of the path: kinodynamic-path.cc:353-376. -/
noncomputable def trimEnd (tf t0 t1 tv t2 : ℝ) : ℝ × ℝ × ℝ × ℝ :=
  if t2 - tf ≤ 0 then
    let tf := tf - t2
    if tv - tf ≤ 0 then
      let tf := tf - tv
      if t1 - tf ≤ 0 then
        let tf := tf - t1
        if t0 - tf < 0 then (0, 0, 0, 0) else (t0 - tf, 0, 0, 0)
      else (t0, t1 - tf, 0, 0)
    else (t0, t1, tv - tf, 0)
  else (t0, t1, tv, t2 - tf)

/-- `KinodynamicPath::impl_extract`: kinodynamic-path.cc:262-382, for a path without constraints (constraints do not fail). -/
noncomputable def KP.extract (K : KP) (a b : ℝ) : Ext :=
  if a = 0 ∧ b = K.len then .kino K
  else if |b - a| ≤ 0 then .straight (K.eval a)
  else if b < a then .null
  else
    let x := trimStart a K.t0 K.t1 K.tv K.t2
    let y := trimEnd (K.len - b) x.1 x.2.1 x.2.2.1 x.2.2.2
    .kino ⟨(K.eval a).1, (K.eval a).2, (K.eval b).1, (K.eval b).2, |b - a|, K.a1, y.1, y.2.1, y.2.2.1, y.2.2.2, K.vLim⟩

/-! ## Spec: motion by phases of constant acceleration -/

/-- State at time `t` of a motion made of phases (duration and acceleration); constant velocity is not extended after the last phase. -/
noncomputable def run : List (ℝ × ℝ) → ℝ × ℝ → ℝ → ℝ × ℝ
  | [], x, _ => x
  | (τ, a) :: l, x, t => if t ≤ τ then phase x t a else run l (phase x τ a) (t - τ)

/-- Total duration. -/
def total (l : List (ℝ × ℝ)) : ℝ := (l.map (·.1)).sum

/-- The phases of a path. -/
def KP.phases (K : KP) : List (ℝ × ℝ) := [(K.t0, 0), (K.t1, K.a1), (K.tv, 0), (K.t2, -K.a1)]

/-- A path whose parameters are consistent: durations are not negative and sum up to the length, `vLim` is the velocity of the third phase, and the motion
ends at the end configuration. -/
structure KP.Coherent (K : KP) : Prop where
  t0 : 0 ≤ K.t0
  t1 : 0 ≤ K.t1
  tv : 0 ≤ K.tv
  t2 : 0 ≤ K.t2
  len : K.t0 + K.t1 + K.tv + K.t2 = K.len
  lim : 0 < K.tv → K.v1 + K.a1 * K.t1 = K.vLim
  target : run K.phases (K.p1, K.v1) K.len = (K.p2, K.v2)

theorem phase_zero (x : ℝ × ℝ) (a : ℝ) : phase x 0 a = x := by
  unfold phase; ext <;> simp

theorem phase_add (x : ℝ × ℝ) (s t a : ℝ) : phase x (s + t) a = phase (phase x s a) t a := by
  unfold phase; ext <;> simp <;> ring

/-- Evaluation is the motion. -/
theorem eval_eq {K : KP} (hK : K.Coherent) {t : ℝ} (h0 : 0 ≤ t) (h1 : t ≤ K.len) : K.eval t = run K.phases (K.p1, K.v1) t := by
  have hlim : K.tv * K.vLim = K.tv * (K.v1 + K.a1 * K.t1) := by
    by_cases h : 0 < K.tv
    · rw [hK.lim h]
    · have : K.tv = 0 := le_antisymm (not_lt.1 h) hK.tv
      rw [this]; ring
  have hv2 : (if 0 < K.tv then K.vLim else K.t1 * K.a1 + K.v1) = K.v1 + K.a1 * K.t1 := by
    by_cases h : 0 < K.tv
    · rw [if_pos h, hK.lim h]
    · rw [if_neg h]; ring
  unfold KP.eval
  by_cases e1 : t = 0 ∨ K.len = 0
  · rw [if_pos e1]
    have ht : t = 0 := by rcases e1 with h | h <;> linarith
    rw [ht]
    unfold KP.phases
    rw [run, if_pos hK.t0, phase_zero]
  · rw [if_neg e1]
    by_cases e2 : t = K.len
    · rw [if_pos e2, e2, hK.target]
    · rw [if_neg e2]
      unfold KP.phases
      by_cases e3 : t ≤ K.t0
      · rw [if_pos e3]
        rw [run, if_pos e3]
        unfold phase; ext <;> simp
        ring
      · rw [if_neg e3]
        by_cases e4 : t ≤ K.t0 + K.t1
        · rw [if_pos e4]
          rw [run, if_neg e3]; rw [run, if_pos (by linarith)]
          unfold phase; ext <;> simp <;> ring
        · rw [if_neg e4]
          by_cases e5 : t ≤ K.t0 + K.t1 + K.tv
          · rw [if_pos e5]
            have htv : 0 < K.tv := by linarith [not_le.1 e4]
            rw [run, if_neg e3]; rw [run, if_neg (by linarith [not_le.1 e4])]; rw [run, if_pos (by linarith)]
            rw [← hK.lim htv]
            unfold phase; ext <;> simp <;> ring
          · rw [if_neg e5, if_pos (by rw [hK.len]; exact h1)]
            simp only [hv2]
            rw [hlim]
            rw [run, if_neg e3, run, if_neg (by linarith [not_le.1 e4]), run, if_neg (by linarith [not_le.1 e5]), run, if_pos (by have := hK.len; linarith)]
            unfold phase; ext <;> simp <;> ring

/-! ## Extraction -/

/-- Phases without the beginning. -/
noncomputable def dropT : List (ℝ × ℝ) → ℝ → List (ℝ × ℝ)
  | [], _ => []
  | (τ, a) :: l, t => if τ - t ≤ 0 then (0, a) :: dropT l (t - τ) else (τ - t, a) :: l

theorem run_dropT (l : List (ℝ × ℝ)) (hl : ∀ x ∈ l, 0 ≤ x.1) : ∀ (x : ℝ × ℝ) (s t : ℝ), 0 ≤ s → 0 ≤ t →
    run (dropT l s) (run l x s) t = run l x (s + t) := by
  induction l with
  | nil => intro x s t _ _; rfl
  | cons y l ih =>
    obtain ⟨τ, a⟩ := y
    intro x s t hs ht
    have hτ : 0 ≤ τ := hl (τ, a) (by simp)
    have hl' : ∀ x ∈ l, 0 ≤ x.1 := fun x hx => hl x (by simp [hx])
    have hzero : ∀ (z : ℝ × ℝ) (m : List (ℝ × ℝ)), (∀ x ∈ m, 0 ≤ x.1) → run m z 0 = z := by
      intro z m hm
      cases m with
      | nil => rfl
      | cons w m =>
        obtain ⟨σ, b⟩ := w
        have : 0 ≤ σ := hm (σ, b) (by simp)
        rw [run, if_pos this, phase_zero]
    by_cases h1 : τ - s ≤ 0
    · have hd : dropT ((τ, a) :: l) s = (0, a) :: dropT l (s - τ) := by rw [dropT, if_pos h1]
      -- both conventions at the end of the phase agree
      have hr : run ((τ, a) :: l) x s = run l (phase x τ a) (s - τ) := by
        by_cases h2 : s ≤ τ
        · have : s = τ := by linarith
          subst this
          rw [run, if_pos le_rfl, sub_self, hzero _ l hl']
        · rw [run, if_neg h2]
      rw [hd, hr, run]
      by_cases h3 : t ≤ 0
      · have ht0 : t = 0 := le_antisymm h3 ht
        rw [if_pos h3, ht0, phase_zero, add_zero, hr]
      · rw [if_neg h3, phase_zero, sub_zero, ih hl' _ _ _ (by linarith) ht]
        have : ¬ s + t ≤ τ := by linarith [not_le.1 h3]
        rw [run, if_neg this]
        congr 1; ring
    · have hd : dropT ((τ, a) :: l) s = (τ - s, a) :: l := by rw [dropT, if_neg h1]
      have h1' := not_le.1 h1
      rw [hd, run, show run ((τ, a) :: l) x s = phase x s a by rw [run, if_pos (by linarith)]]
      by_cases h3 : t ≤ τ - s
      · rw [if_pos h3, run, if_pos (by linarith), phase_add]
      · rw [if_neg h3, ← phase_add, run, if_neg (by linarith [not_le.1 h3])]
        have e1 : s + (τ - s) = τ := by ring
        rw [e1]
        congr 1; ring

theorem dropT_nonneg (l : List (ℝ × ℝ)) (hl : ∀ x ∈ l, 0 ≤ x.1) : ∀ s, 0 ≤ s → (∀ x ∈ dropT l s, 0 ≤ x.1) := by
  induction l with
  | nil => intro s _ x hx; simp [dropT] at hx
  | cons y l ih =>
    obtain ⟨τ, a⟩ := y
    intro s hs x hx
    have hl' : ∀ x ∈ l, 0 ≤ x.1 := fun x hx => hl x (by simp [hx])
    unfold dropT at hx
    by_cases h : τ - s ≤ 0
    · rw [if_pos h] at hx
      rcases List.mem_cons.1 hx with rfl | hx
      · exact le_rfl
      · exact ih hl' _ (by linarith) x hx
    · rw [if_neg h] at hx
      rcases List.mem_cons.1 hx with rfl | hx
      · exact (not_le.1 h).le
      · exact hl' x hx

theorem total_dropT (l : List (ℝ × ℝ)) : ∀ s, 0 ≤ s → s ≤ total l → total (dropT l s) = total l - s := by
  induction l with
  | nil =>
    intro s h1 h2
    simp [total] at h2
    simp [dropT, total]; linarith
  | cons y l ih =>
    obtain ⟨τ, a⟩ := y
    intro s h1 h2
    have ht : total ((τ, a) :: l) = τ + total l := by simp [total]
    rw [ht] at h2 ⊢
    unfold dropT
    by_cases h : τ - s ≤ 0
    · rw [if_pos h]
      have : total ((0, a) :: dropT l (s - τ)) = total (dropT l (s - τ)) := by simp [total]
      rw [this, ih _ (by linarith) (by linarith)]; ring
    · rw [if_neg h]
      have : total ((τ - s, a) :: l) = τ - s + total l := by simp [total]
      rw [this]; ring

/-- The motion along the first phases. -/
theorem run_take (l m : List (ℝ × ℝ)) : ∀ (x : ℝ × ℝ) (t : ℝ), l ≠ [] → t ≤ total l → (∀ y ∈ l, 0 ≤ y.1) → (∀ y ∈ m, 0 ≤ y.1) → run (l ++ m) x t = run l x t := by
  induction l with
  | nil => intro x t h; exact absurd rfl h
  | cons y l ih =>
    obtain ⟨τ, a⟩ := y
    intro x t _ ht hl hm
    have htot : total ((τ, a) :: l) = τ + total l := by simp [total]
    rw [htot] at ht
    rw [List.cons_append, run, run]
    by_cases h : t ≤ τ
    · rw [if_pos h, if_pos h]
    · rw [if_neg h, if_neg h]
      by_cases hn : l = []
      · subst hn
        simp [total] at ht
        exact absurd ht h
      · exact ih _ _ hn (by linarith) (fun y hy => hl y (by simp [hy])) hm

theorem total_nonneg (l : List (ℝ × ℝ)) (h : ∀ x ∈ l, 0 ≤ x.1) : 0 ≤ total l := by
  unfold total
  apply List.sum_nonneg
  intro x hx
  rw [List.mem_map] at hx
  obtain ⟨y, hy, rfl⟩ := hx
  exact h y hy

/-- Shortening a phase and cancelling those after it does not change the motion before. -/
theorem run_cut (l m m' : List (ℝ × ℝ)) (τ τ' a : ℝ) : ∀ (x : ℝ × ℝ) (t : ℝ), (∀ y ∈ l, 0 ≤ y.1) → τ' ≤ τ → t ≤ total l + τ' →
    run (l ++ (τ', a) :: m') x t = run (l ++ (τ, a) :: m) x t := by
  induction l with
  | nil =>
    intro x t _ h1 h2
    simp [total] at h2
    rw [List.nil_append, List.nil_append, run, run, if_pos h2, if_pos (by linarith)]
  | cons y l ih =>
    obtain ⟨σ, b⟩ := y
    intro x t hl h1 h2
    have htot : total ((σ, b) :: l) = σ + total l := by simp [total]
    rw [htot] at h2
    rw [List.cons_append, List.cons_append, run, run]
    by_cases h : t ≤ σ
    · rw [if_pos h, if_pos h]
    · rw [if_neg h, if_neg h]
      exact ih _ _ (fun y hy => hl y (by simp [hy])) h1 (by linarith)

theorem trimStart_eq (ti t0 t1 tv t2 a1 : ℝ) (h : ti ≤ t0 + t1 + tv + t2) :
    dropT [(t0, 0), (t1, a1), (tv, 0), (t2, -a1)] ti =
      [((trimStart ti t0 t1 tv t2).1, 0), ((trimStart ti t0 t1 tv t2).2.1, a1), ((trimStart ti t0 t1 tv t2).2.2.1, 0), ((trimStart ti t0 t1 tv t2).2.2.2, -a1)] := by
  unfold trimStart
  simp only [dropT]
  by_cases h0 : t0 - ti ≤ 0
  · rw [if_pos h0, if_pos h0]
    by_cases h1 : t1 - (ti - t0) ≤ 0
    · rw [if_pos h1, if_pos h1]
      by_cases h2 : tv - (ti - t0 - t1) ≤ 0
      · rw [if_pos h2, if_pos h2]
        by_cases h3 : t2 - (ti - t0 - t1 - tv) ≤ 0
        · have : t2 - (ti - t0 - t1 - tv) = 0 := by linarith
          rw [if_pos h3, if_neg (by linarith), this]
        · rw [if_neg h3, if_neg (by linarith)]
      · rw [if_neg h2, if_neg h2]
    · rw [if_neg h1, if_neg h1]
  · rw [if_neg h0, if_neg h0]

/-- What the end trimming does. -/
theorem trimEnd_spec {tf t0 t1 tv t2 : ℝ} (a1 : ℝ) (g0 : 0 ≤ t0) (g1 : 0 ≤ t1) (gv : 0 ≤ tv) (htf : 0 ≤ tf) (hle : tf ≤ t0 + t1 + tv + t2) :
    let y := trimEnd tf t0 t1 tv t2
    (0 ≤ y.1 ∧ 0 ≤ y.2.1 ∧ 0 ≤ y.2.2.1 ∧ 0 ≤ y.2.2.2) ∧ y.1 + y.2.1 + y.2.2.1 + y.2.2.2 = t0 + t1 + tv + t2 - tf ∧
    (0 < y.2.2.1 → 0 < tv ∧ y.2.1 = t1) ∧
    ∀ x t, 0 ≤ t → t ≤ t0 + t1 + tv + t2 - tf → run [(y.1, 0), (y.2.1, a1), (y.2.2.1, 0), (y.2.2.2, -a1)] x t =
      run [(t0, 0), (t1, a1), (tv, 0), (t2, -a1)] x t := by
  intro y
  by_cases h2 : t2 - tf ≤ 0
  · by_cases hv : tv - (tf - t2) ≤ 0
    · by_cases h1 : t1 - (tf - t2 - tv) ≤ 0
      · have hy : y = (t0 - (tf - t2 - tv - t1), 0, 0, 0) := by
          simp only [y, trimEnd]
          rw [if_pos h2, if_pos hv, if_pos h1, if_neg (by linarith)]
        rw [hy]
        refine ⟨⟨by show 0 ≤ t0 - (tf - t2 - tv - t1); linarith, le_rfl, le_rfl, le_rfl⟩, by show t0 - (tf - t2 - tv - t1) + 0 + 0 + 0 = _; ring, fun h => absurd h (lt_irrefl _), fun x t ht0 ht => ?_⟩
        exact run_cut [] _ _ t0 _ 0 x t (by simp) (by show t0 - (tf - t2 - tv - t1) ≤ t0; linarith) (by simp [total]; linarith)
      · have hy : y = (t0, t1 - (tf - t2 - tv), 0, 0) := by
          simp only [y, trimEnd]
          rw [if_pos h2, if_pos hv, if_neg h1]
        rw [hy]
        refine ⟨⟨g0, (not_le.1 h1).le, le_rfl, le_rfl⟩, by show t0 + (t1 - (tf - t2 - tv)) + 0 + 0 = _; ring, fun h => absurd h (lt_irrefl _), fun x t ht0 ht => ?_⟩
        exact run_cut [(t0, 0)] _ _ t1 _ a1 x t (by simp [g0]) (by show t1 - (tf - t2 - tv) ≤ t1; linarith) (by simp [total]; linarith)
    · have hy : y = (t0, t1, tv - (tf - t2), 0) := by
        simp only [y, trimEnd]
        rw [if_pos h2, if_neg hv]
      rw [hy]
      refine ⟨⟨g0, g1, (not_le.1 hv).le, le_rfl⟩, by show t0 + t1 + (tv - (tf - t2)) + 0 = _; ring, fun h => ⟨by have : 0 < tv - (tf - t2) := h; linarith, rfl⟩, fun x t ht0 ht => ?_⟩
      exact run_cut [(t0, 0), (t1, a1)] _ _ tv _ 0 x t (by simp [g0, g1]) (by show tv - (tf - t2) ≤ tv; linarith) (by simp [total]; linarith)
  · have hy : y = (t0, t1, tv, t2 - tf) := by
      simp only [y, trimEnd]
      rw [if_neg h2]
    rw [hy]
    refine ⟨⟨g0, g1, gv, (not_le.1 h2).le⟩, by show t0 + t1 + tv + (t2 - tf) = _; ring, fun h => ⟨h, rfl⟩, fun x t ht0 ht => ?_⟩
    exact run_cut [(t0, 0), (t1, a1), (tv, 0)] _ _ t2 _ (-a1) x t (by simp [g0, g1, gv]) (by show t2 - tf ≤ t2; linarith) (by simp [total]; linarith)

/-- The limit of velocity after the start is trimmed. -/
theorem trimStart_lim {K : KP} (hK : K.Coherent) {a : ℝ} (hpos : 0 < (trimStart a K.t0 K.t1 K.tv K.t2).2.2.1) :
    (run K.phases (K.p1, K.v1) a).2 + K.a1 * (trimStart a K.t0 K.t1 K.tv K.t2).2.1 = K.vLim := by
  unfold trimStart at *
  unfold KP.phases
  by_cases e0 : K.t0 - a ≤ 0
  · rw [if_pos e0] at hpos ⊢
    by_cases e1 : K.t1 - (a - K.t0) ≤ 0
    · simp only [if_pos e1] at hpos ⊢
      by_cases e2 : K.tv - (a - K.t0 - K.t1) ≤ 0
      · simp only [if_pos e2] at hpos
        split at hpos <;> exact absurd hpos (lt_irrefl _)
      · simp only [if_neg e2] at hpos ⊢
        have htv : 0 < K.tv := by linarith [not_le.1 e2]
        rw [← hK.lim htv]
        have hrun : (run [(K.t0, 0), (K.t1, K.a1), (K.tv, 0), (K.t2, -K.a1)] (K.p1, K.v1) a).2 = K.v1 + K.a1 * K.t1 := by
          by_cases c0 : a ≤ K.t0
          · have c1 : a = K.t0 := by linarith
            have c2 : K.t1 = 0 := by have := hK.t1; linarith
            rw [run, if_pos c0]; simp [phase, c2]
          · by_cases c1 : a ≤ K.t0 + K.t1
            · have c2 : a - K.t0 = K.t1 := by linarith
              rw [run, if_neg c0, run, if_pos (by linarith)]; simp [phase, c2]
            · rw [run, if_neg c0, run, if_neg (by linarith [not_le.1 c1]), run, if_pos (by linarith)]
              simp [phase]
        rw [hrun]; ring
    · simp only [if_neg e1] at hpos ⊢
      rw [← hK.lim hpos]
      by_cases c0 : a ≤ K.t0
      · have c1 : a = K.t0 := by linarith
        rw [run, if_pos c0]; simp [phase, c1]
      · rw [run, if_neg c0, run, if_pos (by linarith [not_le.1 e1])]; simp [phase]; ring
  · rw [if_neg e0] at hpos ⊢
    rw [← hK.lim hpos]
    rw [run, if_pos (by linarith [not_le.1 e0])]; simp [phase]

/-- C81: the extraction of a kinodynamic path over a sub-interval is a kinodynamic path that follows the original one: same position and velocity at any
time, and its parameters are consistent. -/
theorem C81_extract {K : KP} (hK : K.Coherent) {a b : ℝ} (h0 : 0 ≤ a) (hab : a < b) (hb : b ≤ K.len) :
    ∃ K', K.extract a b = .kino K' ∧ K'.Coherent ∧ K'.len = b - a ∧ ∀ t, 0 ≤ t → t ≤ b - a → K'.eval t = K.eval (a + t) := by
  unfold KP.extract
  by_cases hfull : a = 0 ∧ b = K.len
  · rw [if_pos hfull]
    obtain ⟨rfl, rfl⟩ := hfull
    exact ⟨K, rfl, hK, by ring, fun t _ _ => by rw [zero_add]⟩
  · rw [if_neg hfull, if_neg (by rw [abs_of_pos (by linarith)]; linarith), if_neg (by linarith)]
    have habs : |b - a| = b - a := abs_of_pos (by linarith)
    have hla : a ≤ K.t0 + K.t1 + K.tv + K.t2 := by rw [hK.len]; linarith
    have hnn : ∀ x ∈ K.phases, 0 ≤ x.1 := by
      intro x hx
      simp only [KP.phases, List.mem_cons, List.not_mem_nil, or_false] at hx
      rcases hx with rfl | rfl | rfl | rfl
      · exact hK.t0
      · exact hK.t1
      · exact hK.tv
      · exact hK.t2
    have htotal : total K.phases = K.len := by
      rw [← hK.len]; simp [total, KP.phases]; ring
    have hd := trimStart_eq a K.t0 K.t1 K.tv K.t2 K.a1 hla
    have hdn := dropT_nonneg K.phases hnn a h0
    have hdt := total_dropT K.phases a h0 (by rw [htotal]; linarith)
    rw [htotal] at hdt
    have hrun : ∀ t, 0 ≤ t → run (dropT K.phases a) (run K.phases (K.p1, K.v1) a) t = run K.phases (K.p1, K.v1) (a + t) :=
      fun t ht => run_dropT K.phases hnn _ a t h0 ht
    have hlimS := trimStart_lim (a := a) hK
    have hph : dropT K.phases a = dropT [(K.t0, 0), (K.t1, K.a1), (K.tv, 0), (K.t2, -K.a1)] a := rfl
    rw [hph, hd] at hdn hdt
    have hrun' : ∀ t, 0 ≤ t → run [((trimStart a K.t0 K.t1 K.tv K.t2).1, 0), ((trimStart a K.t0 K.t1 K.tv K.t2).2.1, K.a1),
        ((trimStart a K.t0 K.t1 K.tv K.t2).2.2.1, 0), ((trimStart a K.t0 K.t1 K.tv K.t2).2.2.2, -K.a1)] (run K.phases (K.p1, K.v1) a) t =
        run K.phases (K.p1, K.v1) (a + t) := by
      intro t ht
      rw [← hrun t ht, hph, hd]
    generalize hx : trimStart a K.t0 K.t1 K.tv K.t2 = x at *
    obtain ⟨x0, x1, xv, x2⟩ := x
    simp only at *
    have g0 : 0 ≤ x0 := hdn (x0, 0) (by simp)
    have g1 : 0 ≤ x1 := hdn (x1, K.a1) (by simp)
    have gv : 0 ≤ xv := hdn (xv, 0) (by simp)
    have g2 : 0 ≤ x2 := hdn (x2, -K.a1) (by simp)
    have gt : x0 + x1 + xv + x2 = K.len - a := by rw [← hdt]; simp [total]; ring
    obtain ⟨⟨y0, y1, yv, y2⟩, ysum, ylim, yrun⟩ := trimEnd_spec K.a1 g0 g1 gv (show 0 ≤ K.len - b by linarith) (by linarith)
    generalize trimEnd (K.len - b) x0 x1 xv x2 = y at *
    have hlen : x0 + x1 + xv + x2 - (K.len - b) = b - a := by rw [gt]; ring
    rw [hlen] at ysum yrun
    have hea := eval_eq hK h0 (show a ≤ K.len by linarith)
    have heb := eval_eq hK (show 0 ≤ b by linarith) hb
    have hco : KP.Coherent ⟨(K.eval a).1, (K.eval a).2, (K.eval b).1, (K.eval b).2, |b - a|, K.a1, y.1, y.2.1, y.2.2.1, y.2.2.2, K.vLim⟩ := by
      refine ⟨y0, y1, yv, y2, by rw [habs]; exact ysum, fun hp => ?_, ?_⟩
      · obtain ⟨l1, l2⟩ := ylim hp
        show (K.eval a).2 + K.a1 * y.2.1 = K.vLim
        rw [hea, l2]
        exact hlimS l1
      · show run [(y.1, 0), (y.2.1, K.a1), (y.2.2.1, 0), (y.2.2.2, -K.a1)] (K.eval a) |b - a| = K.eval b
        rw [habs, yrun _ _ (by linarith) le_rfl, hea, hrun' _ (by linarith), heb]
        congr 1; ring
    refine ⟨_, rfl, hco, habs, fun t ht0 ht1 => ?_⟩
    rw [eval_eq hco ht0 (by show t ≤ |b - a|; rw [habs]; exact ht1)]
    show run [(y.1, 0), (y.2.1, K.a1), (y.2.2.1, 0), (y.2.2.2, -K.a1)] (K.eval a) t = _
    rw [yrun _ _ ht0 ht1, hea, hrun' _ ht0, eval_eq hK (by linarith) (by linarith)]

/-- C81: a reversed interval gives no path, and a null interval gives a constant path. -/
theorem C81_degenerate (K : KP) (a b : ℝ) : (b < a → ¬ (a = 0 ∧ b = K.len) → K.extract a b = .null) ∧
    (¬ (a = 0 ∧ a = K.len) → K.extract a a = .straight (K.eval a)) := by
  constructor
  · intro h hne
    unfold KP.extract
    rw [if_neg hne, if_neg (by rw [abs_of_neg (by linarith)]; linarith), if_pos h]
  · intro hne
    unfold KP.extract
    rw [if_neg hne, if_pos (by simp)]

/-- C81: along an axis that waits at its target at the end of the path (vertical axis not synchronized, nonzero initial velocity), extraction cuts the
motion instead of the waiting time.  The original path reaches position `7/2` at time 3 and stays there until time 5; the path extracted on `[0, 4]` jumps to
the end position at time 2. -/
theorem C81_wait_counterexample :
    let K : KP := ⟨0, 1, 7 / 2, 0, 5, 1, 0, 1, 0, 2, 2⟩
    K.eval (5 / 2) = (27 / 8, 1 / 2) ∧ ∃ K', K.extract 0 4 = .kino K' ∧ K'.eval (5 / 2) = (7 / 2, 0) := by
  intro K
  refine ⟨?_, ?_⟩
  · unfold KP.eval
    norm_num [K]
  · have e0 : K.eval 0 = (0, 1) := by unfold KP.eval; rw [if_pos (Or.inl rfl)]
    have e4 : K.eval 4 = (7 / 2, 0) := by
      unfold KP.eval
      norm_num [K]
    have hx : trimStart 0 K.t0 K.t1 K.tv K.t2 = (0, 1, 0, 2) := by unfold trimStart; norm_num [K]
    have hy : trimEnd (K.len - 4) 0 1 0 2 = (0, 1, 0, 1) := by unfold trimEnd; norm_num [K]
    unfold KP.extract
    rw [if_neg (by norm_num [K]), if_neg (by norm_num), if_neg (by norm_num)]
    simp only [hx, hy, e0, e4]
    refine ⟨_, rfl, ?_⟩
    unfold KP.eval
    norm_num [K]

/-! ## Velocity along the path -/

/-- C80: along a consistent path, the state is the one of the motion by phases of constant acceleration from the initial position and velocity, it is the
initial one at the beginning and the final one at the end. -/
theorem C80_eval {K : KP} (hK : K.Coherent) : (∀ t, 0 ≤ t → t ≤ K.len → K.eval t = run K.phases (K.p1, K.v1) t) ∧
    K.eval 0 = (K.p1, K.v1) ∧ K.eval K.len = (K.p2, K.v2) := by
  have hl : 0 ≤ K.len := by rw [← hK.len]; have := hK.t0; have := hK.t1; have := hK.tv; have := hK.t2; linarith
  refine ⟨fun t h0 h1 => eval_eq hK h0 h1, ?_, ?_⟩
  · unfold KP.eval; rw [if_pos (Or.inl rfl)]
  · rw [eval_eq hK hl le_rfl, hK.target]

/-- C80: the velocity never exceeds the greatest of the initial velocity, the final one and the one after the acceleration. -/
theorem C80_velocity {K : KP} (hK : K.Coherent) {V : ℝ} (h1 : |K.v1| ≤ V) (h2 : |K.v2| ≤ V) (hp : |K.v1 + K.a1 * K.t1| ≤ V) {t : ℝ} (h0 : 0 ≤ t) (ht : t ≤ K.len) :
    |(K.eval t).2| ≤ V := by
  have hseg : ∀ x y l τ : ℝ, |x| ≤ V → |x + y * τ| ≤ V → 0 ≤ l → l ≤ τ → |x + y * l| ≤ V := by
    intro x y l τ hx hy hl hlτ
    have a1 := abs_le.1 hx
    have a2 := abs_le.1 hy
    rw [abs_le]
    by_cases hy0 : 0 ≤ y
    · have k1 : 0 ≤ y * l := mul_nonneg hy0 hl
      have k2 : y * l ≤ y * τ := mul_le_mul_of_nonneg_left hlτ hy0
      constructor <;> linarith [a1.1, a2.2]
    · have hy1 : y ≤ 0 := (not_le.1 hy0).le
      have k1 : y * l ≤ 0 := mul_nonpos_of_nonpos_of_nonneg hy1 hl
      have k2 : y * τ ≤ y * l := mul_le_mul_of_nonpos_left hlτ hy1
      constructor <;> linarith [a1.2, a2.1]
  have hend : |K.v1 + K.a1 * K.t1 + -K.a1 * K.t2| ≤ V := by
    have htar := congrArg Prod.snd hK.target
    have hlen := hK.len
    simp only [KP.phases] at htar
    have g0 := hK.t0
    have g1 := hK.t1
    have gv := hK.tv
    have g2 := hK.t2
    have hv : (run [(K.t0, 0), (K.t1, K.a1), (K.tv, 0), (K.t2, -K.a1)] (K.p1, K.v1) K.len).2 = K.v1 + K.a1 * K.t1 + -K.a1 * K.t2 := by
      by_cases c0 : K.len ≤ K.t0
      · have z1 : K.t1 = 0 := by linarith
        have z2 : K.t2 = 0 := by linarith
        rw [run, if_pos c0]; simp [phase, z1, z2]
      · rw [run, if_neg c0]
        by_cases c1 : K.len - K.t0 ≤ K.t1
        · have z2 : K.t2 = 0 := by linarith
          have z3 : K.len - K.t0 = K.t1 := by linarith
          rw [run, if_pos c1]; simp [phase, z2, z3]
        · rw [run, if_neg c1]
          by_cases c2 : K.len - K.t0 - K.t1 ≤ K.tv
          · have z2 : K.t2 = 0 := by linarith
            rw [run, if_pos c2]; simp [phase, z2]
          · have z3 : K.len - K.t0 - K.t1 - K.tv = K.t2 := by linarith
            rw [run, if_neg c2, z3, run, if_pos le_rfl]; simp [phase]
    rw [← hv, htar]; exact h2
  rw [eval_eq hK h0 ht]
  unfold KP.phases
  have hlen := hK.len
  by_cases c0 : t ≤ K.t0
  · rw [run, if_pos c0]; simpa [phase] using h1
  · rw [run, if_neg c0]
    by_cases c1 : t - K.t0 ≤ K.t1
    · rw [run, if_pos c1]
      have := hseg K.v1 K.a1 (t - K.t0) K.t1 h1 hp (by linarith [not_le.1 c0]) c1
      simpa [phase] using this
    · rw [run, if_neg c1]
      by_cases c2 : t - K.t0 - K.t1 ≤ K.tv
      · rw [run, if_pos c2]; simpa [phase] using hp
      · have hle : t - K.t0 - K.t1 - K.tv ≤ K.t2 := by linarith
        rw [run, if_neg c2, run, if_pos hle]
        have := hseg (K.v1 + K.a1 * K.t1) (-K.a1) (t - K.t0 - K.t1 - K.tv) K.t2 hp hend (by linarith [not_le.1 c2]) hle
        simpa [phase] using this

/-- A consistent path with three moving phases. -/
example : KP.Coherent ⟨0, 0, 2, 0, 3, 1, 0, 1, 1, 1, 1⟩ := by
  refine ⟨le_rfl, zero_le_one, zero_le_one, zero_le_one, by norm_num, fun _ => by norm_num, ?_⟩
  simp only [KP.phases, run]
  norm_num [phase]

/-! ## Derivative and velocity bound of the path -/

/-- `impl_derivative` of order 1 of a kinodynamic path: it is not redefined, so the one of the straight path applies: src/straight-path.cc:112-126, the difference of
the end configurations divided by the length. -/
noncomputable def KP.derivative (K : KP) (_t : ℝ) : ℝ := (K.p2 - K.p1) / K.len

/-- `impl_velocityBound`: the one of the straight path: src/straight-path.cc:132-140. -/
noncomputable def KP.velocityBound (K : KP) (_t0 _t1 : ℝ) : ℝ := |K.p2 - K.p1| / K.len

/-- C80, partial: the derivative of the path and its velocity bound are the mean velocity over the whole path and its absolute value.  Missing: they are not the velocity
and its bound (`C80_velocityBound_counterexample`). -/
theorem C80_derivative_partial {K : KP} (hK : K.Coherent) (hl : 0 < K.len) (t : ℝ) :
    K.derivative t * K.len = (K.eval K.len).1 - (K.eval 0).1 ∧ ∀ t0 t1, K.velocityBound t0 t1 = |K.derivative t| := by
  obtain ⟨-, h0, h1⟩ := C80_eval hK
  refine ⟨?_, fun _ _ => ?_⟩
  · rw [h0, h1]
    unfold KP.derivative
    field_simp
  · unfold KP.velocityBound KP.derivative
    rw [abs_div, abs_of_pos hl]

/-- C80: the derivative of the path and its velocity bound are those of a straight path: from rest to rest over a distance 1 with acceleration 1, the path has
velocity 1 in the middle, but the derivative returned is 1/2 and the bound returned is 1/2. -/
theorem C80_velocityBound_counterexample :
    let K : KP := ⟨0, 0, 1, 0, 2, 1, 0, 1, 0, 1, 1⟩
    K.Coherent ∧ K.eval 1 = (1 / 2, 1) ∧ K.derivative 1 = 1 / 2 ∧ K.velocityBound 0 2 = 1 / 2 := by
  intro K
  refine ⟨⟨le_rfl, zero_le_one, le_rfl, zero_le_one, by norm_num [K], fun h => absurd h (lt_irrefl _), ?_⟩, ?_, by norm_num [KP.derivative, K], by norm_num [KP.velocityBound, K]⟩
  · simp only [KP.phases, run, K]
    norm_num [phase]
  · unfold KP.eval
    norm_num [K]

end Verif.Kino
