import Verif.Path.Ball
import Verif.Path.LieGroup
import Mathlib.GroupTheory.QuotientGroup.Basic
set_option linter.unusedSectionVars false

/-!
# Straight paths of robots with joints of any kind (C128)

A joint is a Lie group with its exponential and its logarithm; bounded joints and translations, unbounded rotations and ball joints are instances.
-/
namespace Verif.Joints
open Verif.PathV

/-- Contract of a joint: `integrate` is `q * exp v`, `difference` is `log (q0⁻¹ q1)`.  `short`: tangent vectors that the logarithm recovers (less than half a turn). -/
structure Joint where
  G : Type
  V : Type
  [grp : Group G]
  [add : AddCommGroup V]
  [mod : Module ℝ V]
  exp : V → G
  log : G → V
  short : V → Prop
  exp_add : ∀ (s t : ℝ) (v : V), exp ((s + t) • v) = exp (s • v) * exp (t • v)
  exp_log : ∀ g, exp (log g) = g
  log_exp : ∀ v, short v → log (exp v) = v
  short_smul : ∀ v (c : ℝ), short v → |c| ≤ 1 → short (c • v)

attribute [instance] Joint.grp Joint.add Joint.mod

variable {ι : Type}

theorem Joint.exp_zero (j : Joint) : j.exp 0 = 1 := by
  have := j.exp_add 0 0 0
  rw [smul_zero, smul_zero] at this
  exact (mul_eq_left.1 this.symm)

theorem Joint.exp_neg (j : Joint) (s : ℝ) (v : j.V) : (j.exp (s • v))⁻¹ = j.exp ((-s) • v) := by
  rw [inv_eq_iff_mul_eq_one, ← j.exp_add, add_neg_cancel, zero_smul, j.exp_zero]

/-- `LiegroupSpace::interpolate`, called at straight-path.cc:108. -/
def robot (J : ι → Joint) : Space ℝ ((i : ι) → (J i).G) where
  interp a b u := fun i => a i * (J i).exp (u • (J i).log ((a i)⁻¹ * b i))
  zero a b := by funext i; rw [zero_smul, Joint.exp_zero, mul_one]
  one a b := by funext i; rw [one_smul, Joint.exp_log]; group

/-- Specification: no joint has half a turn to do. -/
def Short (J : ι → Joint) (a b : (i : ι) → (J i).G) : Prop := ∀ i, (J i).short ((J i).log ((a i)⁻¹ * b i))

/-- C128 (partial): robots with joints of any kind; except for half turns, segments of the configuration space are made of their sub-segments, in both directions. -/
theorem C128_joints_partial (J : ι → Joint) (a b : (i : ι) → (J i).G) (h : Short J a b) : GeoPair (robot J) a b := by
  intro u v w u0 u1 v0 v1 w0 w1
  funext i
  show (a i * (J i).exp (u • _)) * (J i).exp (w • (J i).log ((a i * (J i).exp (u • _))⁻¹ * (a i * (J i).exp (v • _)))) = a i * (J i).exp (_ • _)
  have hs := h i
  generalize (J i).log ((a i)⁻¹ * b i) = l at *
  have e : (a i * (J i).exp (u • l))⁻¹ * (a i * (J i).exp (v • l)) = (J i).exp ((v - u) • l) := by
    rw [mul_inv_rev, mul_assoc, inv_mul_cancel_left, Joint.exp_neg, ← Joint.exp_add]
    congr 2; ring
  rw [e, (J i).log_exp _ ((J i).short_smul _ _ hs (abs_le.2 ⟨by linarith, by linarith⟩)), smul_smul, mul_assoc, ← Joint.exp_add]

/-- C128 (partial): extraction and reversal of straight paths of robots with joints of any kind, without half turn. -/
theorem C128_joints_extract_partial (J : ι → Joint) (p : Straight ℝ ((i : ι) → (J i).G)) (h : p.pr.1 ≤ p.pr.2) (hc : p.cons = none) (hn : Short J p.q0 p.q1) (a b : ℝ)
    (ha : p.pr.1 ≤ a ∧ a ≤ p.pr.2) (hb : p.pr.1 ≤ b ∧ b ≤ p.pr.2) :
    ∃ r, p.extract (robot J) a b = .ok r ∧ r.pr.2 - r.pr.1 = |b - a| ∧
      (a ≤ b → ∀ x, 0 ≤ x → x ≤ b - a → r.eval (robot J) (r.pr.1 + x) = p.eval (robot J) (a + x)) ∧
      (b ≤ a → ∀ x, 0 ≤ x → x ≤ a - b → r.eval (robot J) (r.pr.1 + x) = p.eval (robot J) (a - x)) :=
  C26_extract_partial (robot J) p ⟨h, C128_joints_partial J _ _ hn, hc⟩ a b ha hb

/-! ## Translations and unbounded rotations -/

/-- Bounded joints and translations. -/
def line : Joint where
  G := Multiplicative ℝ
  V := ℝ
  exp := Multiplicative.ofAdd
  log := Multiplicative.toAdd
  short _ := True
  exp_add s t v := by rw [add_smul]; rfl
  exp_log _ := rfl
  log_exp _ _ := rfl
  short_smul _ _ _ _ := trivial

/-- Unbounded rotations about an axis. -/
noncomputable def circle : Joint where
  G := Multiplicative Real.Angle
  V := ℝ
  exp v := Multiplicative.ofAdd (v : Real.Angle)
  log g := (Multiplicative.toAdd g).toReal
  short v := |v| < Real.pi
  exp_add s t v := by rw [add_smul, Real.Angle.coe_add]; rfl
  exp_log g := by
    show Multiplicative.ofAdd (((Multiplicative.toAdd g).toReal : ℝ) : Real.Angle) = g
    rw [Real.Angle.coe_toReal]; rfl
  log_exp v h := by
    show ((v : ℝ) : Real.Angle).toReal = v
    rw [Real.Angle.toReal_coe_eq_self_iff]
    exact ⟨(abs_lt.1 h).1, (abs_lt.1 h).2.le⟩
  short_smul v c h hc := by
    show |c * v| < Real.pi
    rw [abs_mul]
    nlinarith [abs_nonneg v, abs_nonneg c]

/-! ## Ball joints -/

open scoped Quaternion
open Verif.SplineOpt Verif.Ball

/-- Three degrees of freedom. -/
def ext (v : Fin 3 → ℝ) (d : ℕ) : ℝ := if h : d < 3 then v ⟨d, h⟩ else 0

theorem ext_smul (s : ℝ) (v : Fin 3 → ℝ) (d : ℕ) : ext (s • v) d = s * ext v d := by
  unfold ext; split <;> simp

theorem ang_smul (s : ℝ) (v : Fin 3 → ℝ) : ang (ext (s • v)) = |s| * ang (ext v) := by
  unfold ang
  simp only [ext_smul]
  rw [show (s * ext v 0) ^ 2 + (s * ext v 1) ^ 2 + (s * ext v 2) ^ 2 = s ^ 2 * (ext v 0 ^ 2 + ext v 1 ^ 2 + ext v 2 ^ 2) by ring,
    Real.sqrt_mul (sq_nonneg s), Real.sqrt_sq_eq_abs]

theorem ang_zero {v : Fin 3 → ℝ} (h : ang (ext v) = 0) : v = 0 := by
  have := ang_sq (ext v)
  rw [h] at this
  have h0 : ext v 0 ^ 2 = 0 := by nlinarith [sq_nonneg (ext v 0), sq_nonneg (ext v 1), sq_nonneg (ext v 2)]
  have h1 : ext v 1 ^ 2 = 0 := by nlinarith [sq_nonneg (ext v 0), sq_nonneg (ext v 1), sq_nonneg (ext v 2)]
  have h2 : ext v 2 ^ 2 = 0 := by nlinarith [sq_nonneg (ext v 0), sq_nonneg (ext v 1), sq_nonneg (ext v 2)]
  funext d
  fin_cases d
  · exact pow_eq_zero_iff two_ne_zero |>.1 h0
  · exact pow_eq_zero_iff two_ne_zero |>.1 h1
  · exact pow_eq_zero_iff two_ne_zero |>.1 h2

/-- Along a line of the tangent space. -/
theorem expQ_smul (s : ℝ) (v : Fin 3 → ℝ) (h : ang (ext v) ≠ 0) :
    Real.cos (ang (ext (s • v)) / 2) = Real.cos (s * (ang (ext v) / 2)) ∧ sc (ext (s • v)) * s = Real.sin (s * (ang (ext v) / 2)) / ang (ext v) := by
  have hp : 0 < ang (ext v) := lt_of_le_of_ne (ang_nonneg _) (Ne.symm h)
  rw [ang_smul]
  unfold sc
  rw [ang_smul]
  by_cases hs : s = 0
  · subst hs; simp
  · rw [if_neg (mul_ne_zero (abs_ne_zero.2 hs) h)]
    rcases lt_or_gt_of_ne hs with hs | hs
    · rw [abs_of_neg hs, show -s * ang (ext v) / 2 = -(s * (ang (ext v) / 2)) by ring, Real.cos_neg, Real.sin_neg]
      refine ⟨rfl, ?_⟩
      field_simp
    · rw [abs_of_pos hs, mul_div_assoc]
      refine ⟨rfl, ?_⟩
      field_simp

theorem expQ_add (s t : ℝ) (v : Fin 3 → ℝ) : expQ (ext ((s + t) • v)) = expQ (ext (s • v)) * expQ (ext (t • v)) := by
  by_cases h : ang (ext v) = 0
  · rw [ang_zero h]
    simp only [smul_zero]
    have : expQ (ext 0) = 1 := by
      have e : ext 0 = 0 := by funext d; simp [ext]
      have := integrateSO3_zero 1
      rwa [integrateSO3, one_mul, ← e] at this
    rw [this, one_mul]
  · obtain ⟨c1, s1⟩ := expQ_smul (s + t) v h
    obtain ⟨c2, s2⟩ := expQ_smul s v h
    obtain ⟨c3, s3⟩ := expQ_smul t v h
    have hn := ang_sq (ext v)
    rw [add_mul] at c1 s1
    rw [Real.cos_add] at c1
    rw [Real.sin_add] at s1
    have im : ∀ (r : ℝ) (d : ℕ), sc (ext (r • v)) * ext (r • v) d = (sc (ext (r • v)) * r) * ext v d := fun r d => by rw [ext_smul]; ring
    generalize hA : Real.sin (s * (ang (ext v) / 2)) = A at *
    generalize hB : Real.sin (t * (ang (ext v) / 2)) = B at *
    generalize hC : Real.cos (s * (ang (ext v) / 2)) = C at *
    generalize hD : Real.cos (t * (ang (ext v) / 2)) = D at *
    ext
    · rw [Quaternion.re_mul]
      simp only [expQ_re, expQ_imI, expQ_imJ, expQ_imK, im, c1, c2, c3, s2, s3]
      field_simp
      rw [hn]; ring
    · rw [Quaternion.imI_mul]
      simp only [expQ_re, expQ_imI, expQ_imJ, expQ_imK, im, c2, c3, s1, s2, s3]
      field_simp
      ring
    · rw [Quaternion.imJ_mul]
      simp only [expQ_re, expQ_imI, expQ_imJ, expQ_imK, im, c2, c3, s1, s2, s3]
      field_simp
      ring
    · rw [Quaternion.imK_mul]
      simp only [expQ_re, expQ_imI, expQ_imJ, expQ_imK, im, c2, c3, s1, s2, s3]
      field_simp
      ring

theorem sc_pos {v : ℕ → ℝ} (h : ang v < Real.pi) : 0 < sc v := by
  unfold sc
  split
  · norm_num
  · next h0 =>
    have hp : 0 < ang v := lt_of_le_of_ne (ang_nonneg _) (Ne.symm h0)
    exact div_pos (Real.sin_pos_of_pos_of_lt_pi (by linarith) (by linarith)) hp

/-- Below half a turn the tangent vector is determined by the rotation. -/
theorem expQ_inj {v w : Fin 3 → ℝ} (hv : ang (ext v) < Real.pi) (hw : ang (ext w) ≤ Real.pi) (h : expQ (ext v) = expQ (ext w) ∨ expQ (ext v) = -expQ (ext w)) : v = w := by
  have hv0 := ang_nonneg (ext v)
  have hw0 := ang_nonneg (ext w)
  have cv : 0 < Real.cos (ang (ext v) / 2) := Real.cos_pos_of_mem_Ioo ⟨by linarith [Real.pi_pos], by linarith⟩
  have cw : 0 ≤ Real.cos (ang (ext w) / 2) := Real.cos_nonneg_of_mem_Icc ⟨by linarith [Real.pi_pos], by linarith⟩
  have hp : expQ (ext v) = expQ (ext w) := by
    rcases h with h | h
    · exact h
    · have := congrArg QuaternionAlgebra.re h
      rw [Quaternion.re_neg, expQ_re, expQ_re] at this
      linarith
  have e := congrArg QuaternionAlgebra.re hp
  rw [expQ_re, expQ_re] at e
  have ea : ang (ext v) = ang (ext w) := by
    have := Real.injOn_cos ⟨by linarith, by linarith [Real.pi_pos]⟩ ⟨by linarith, by linarith [Real.pi_pos]⟩ e
    linarith
  have es : sc (ext v) = sc (ext w) := by unfold sc; rw [ea]
  have sp := sc_pos hv
  have e0 := congrArg QuaternionAlgebra.imI hp
  have e1 := congrArg QuaternionAlgebra.imJ hp
  have e2 := congrArg QuaternionAlgebra.imK hp
  rw [expQ_imI, expQ_imI, ← es] at e0
  rw [expQ_imJ, expQ_imJ, ← es] at e1
  rw [expQ_imK, expQ_imK, ← es] at e2
  funext d
  fin_cases d
  · exact mul_left_cancel₀ sp.ne' e0
  · exact mul_left_cancel₀ sp.ne' e1
  · exact mul_left_cancel₀ sp.ne' e2

/-- Every rotation is the exponential of a vector of norm at most π. -/
theorem expQ_surj (q : ℍ[ℝ]) (hq : ‖q‖ = 1) : ∃ v : Fin 3 → ℝ, ang (ext v) ≤ Real.pi ∧ (expQ (ext v) = q ∨ expQ (ext v) = -q) := by
  have aux : ∀ q : ℍ[ℝ], ‖q‖ = 1 → 0 ≤ q.re → ∃ v : Fin 3 → ℝ, ang (ext v) ≤ Real.pi ∧ expQ (ext v) = q := by
    intro q hq h0
    have hN : q.re ^ 2 + q.imI ^ 2 + q.imJ ^ 2 + q.imK ^ 2 = 1 := by
      have := Quaternion.normSq_eq_norm_mul_self q
      rw [hq, Quaternion.normSq_def'] at this
      linarith
    set b := Real.arccos q.re with hb
    have hb0 : 0 ≤ b := Real.arccos_nonneg _
    have hb1 : b ≤ Real.pi / 2 := Real.arccos_le_pi_div_two.2 h0
    have hc : Real.cos b = q.re := Real.cos_arccos (by linarith) (by nlinarith)
    by_cases hs : Real.sin b = 0
    · have h2 := Real.sin_sq_add_cos_sq b
      rw [hs, hc] at h2
      have i1 : q.imI = 0 := by nlinarith [sq_nonneg q.imI, sq_nonneg q.imJ, sq_nonneg q.imK]
      have i2 : q.imJ = 0 := by nlinarith [sq_nonneg q.imI, sq_nonneg q.imJ, sq_nonneg q.imK]
      have i3 : q.imK = 0 := by nlinarith [sq_nonneg q.imI, sq_nonneg q.imJ, sq_nonneg q.imK]
      have i0 : q.re = 1 := by nlinarith
      have e : ext 0 = 0 := by funext d; simp [ext]
      have a0 : ang (ext 0) = 0 := by rw [e]; simp [ang]
      refine ⟨0, by rw [a0]; exact Real.pi_pos.le, ?_⟩
      have := integrateSO3_zero 1
      rw [integrateSO3, one_mul, ← e] at this
      rw [this]
      ext
      · rw [i0]; rfl
      · rw [i1]; rfl
      · rw [i2]; rfl
      · rw [i3]; rfl
    · have hsp : 0 < Real.sin b := lt_of_le_of_ne (Real.sin_nonneg_of_nonneg_of_le_pi hb0 (by linarith [Real.pi_pos])) (Ne.symm hs)
      have hbp : 0 < b := lt_of_le_of_ne hb0 (fun h => hs (by rw [← h, Real.sin_zero]))
      have h2 := Real.sin_sq_add_cos_sq b
      rw [hc] at h2
      set v : Fin 3 → ℝ := ![2 * b / Real.sin b * q.imI, 2 * b / Real.sin b * q.imJ, 2 * b / Real.sin b * q.imK] with hv
      have v0 : ext v 0 = 2 * b / Real.sin b * q.imI := rfl
      have v1 : ext v 1 = 2 * b / Real.sin b * q.imJ := rfl
      have v2 : ext v 2 = 2 * b / Real.sin b * q.imK := rfl
      have ha : ang (ext v) = 2 * b := by
        have : ang (ext v) ^ 2 = (2 * b) ^ 2 := by
          rw [ang_sq, v0, v1, v2]
          have : q.imI ^ 2 + q.imJ ^ 2 + q.imK ^ 2 = Real.sin b ^ 2 := by linarith
          rw [mul_pow, mul_pow, mul_pow, ← mul_add, ← mul_add, this, div_pow]
          field_simp
        exact (pow_left_inj₀ (ang_nonneg _) (by linarith) two_ne_zero).1 this
      have hsc : sc (ext v) = Real.sin b / (2 * b) := by
        unfold sc
        rw [ha, if_neg (by linarith), mul_div_cancel_left₀ b two_ne_zero]
      refine ⟨v, by rw [ha]; linarith, ?_⟩
      ext
      · rw [expQ_re, ha, mul_div_cancel_left₀ b two_ne_zero, hc]
      · rw [expQ_imI, hsc, v0]; field_simp
      · rw [expQ_imJ, hsc, v1]; field_simp
      · rw [expQ_imK, hsc, v2]; field_simp
  rcases le_total 0 q.re with h | h
  · obtain ⟨v, h1, h2⟩ := aux q hq h
    exact ⟨v, h1, Or.inl h2⟩
  · obtain ⟨v, h1, h2⟩ := aux (-q) (by rw [norm_neg, hq]) (by rw [Quaternion.re_neg]; linarith)
    exact ⟨v, h1, Or.inr h2⟩

/-- Unit quaternions. -/
noncomputable abbrev U := unitary ℍ[ℝ]

theorem mem_U {q : ℍ[ℝ]} (h : ‖q‖ = 1) : q ∈ unitary ℍ[ℝ] := by
  rw [Unitary.mem_iff, Quaternion.star_mul_self, Quaternion.self_mul_star, Quaternion.normSq_eq_norm_mul_self, h, mul_one]
  exact ⟨rfl, rfl⟩

theorem norm_U (q : U) : ‖(q : ℍ[ℝ])‖ = 1 := by
  have h := (Unitary.mem_iff.1 q.2).1
  rw [Quaternion.star_mul_self, Quaternion.normSq_eq_norm_mul_self] at h
  have : ‖(q : ℍ[ℝ])‖ * ‖(q : ℍ[ℝ])‖ = 1 := Quaternion.coe_injective h
  nlinarith [norm_nonneg (q : ℍ[ℝ])]

/-- Opposite quaternions represent the same rotation. -/
def opposite : Subgroup U where
  carrier := {g | g = 1 ∨ g = -1}
  mul_mem' := by
    rintro a b (rfl | rfl) (rfl | rfl) <;> simp
  one_mem' := Or.inl rfl
  inv_mem' := by
    rintro a (rfl | rfl)
    · left; simp
    · right; rw [inv_eq_iff_mul_eq_one]; simp

instance : opposite.Normal where
  conj_mem := by
    rintro n (rfl | rfl) g
    · left; simp
    · right; simp

/-- Rotations of space: unit quaternions up to the sign. -/
abbrev SO3 := U ⧸ opposite

/-- Exponential of rotations. -/
noncomputable def expR (v : Fin 3 → ℝ) : SO3 := QuotientGroup.mk (⟨expQ (ext v), mem_U (expQ_norm _)⟩ : U)

theorem mk_eq (a b : U) : (QuotientGroup.mk a : SO3) = QuotientGroup.mk b ↔ (a : ℍ[ℝ]) = b ∨ (a : ℍ[ℝ]) = -b := by
  rw [QuotientGroup.eq]
  show (a⁻¹ * b = 1 ∨ a⁻¹ * b = -1) ↔ _
  rw [inv_mul_eq_one, inv_mul_eq_iff_eq_mul]
  constructor
  · rintro (h | h)
    · left; rw [h]
    · right; rw [h, mul_neg_one, Unitary.coe_neg, neg_neg]
  · rintro (h | h)
    · left; exact Subtype.ext h
    · right; apply Subtype.ext; rw [mul_neg_one, Unitary.coe_neg, h, neg_neg]

theorem expR_surj (g : SO3) : ∃ v : Fin 3 → ℝ, ang (ext v) ≤ Real.pi ∧ expR v = g := by
  obtain ⟨a, rfl⟩ := QuotientGroup.mk_surjective g
  obtain ⟨v, h1, h2⟩ := expQ_surj (a : ℍ[ℝ]) (norm_U a)
  exact ⟨v, h1, (mk_eq _ _).2 h2⟩

/-- Ball joints, for any logarithm that returns a vector of norm at most π (`log3` of the Lie group library). -/
noncomputable def ball (log : SO3 → Fin 3 → ℝ) (h1 : ∀ g, expR (log g) = g) (h2 : ∀ g, ang (ext (log g)) ≤ Real.pi) : Joint where
  G := SO3
  V := Fin 3 → ℝ
  exp := expR
  log := log
  short v := ang (ext v) < Real.pi
  exp_add s t v := by
    unfold expR
    rw [← QuotientGroup.mk_mul]
    congr 1
    exact Subtype.ext (expQ_add s t v)
  exp_log := h1
  log_exp v hv := by
    have := h1 (expR v)
    unfold expR at this
    rw [mk_eq] at this
    refine (expQ_inj hv (h2 _) ?_).symm
    rcases this with h | h
    · exact Or.inl h.symm
    · exact Or.inr (by rw [show expQ (ext (log (expR v))) = -expQ (ext v) from h, neg_neg])
  short_smul v c h hc := by
    rw [ang_smul]
    nlinarith [ang_nonneg (ext v), abs_nonneg c]

/-- There is such a logarithm. -/
noncomputable def theBall : Joint :=
  ball (fun g => (expR_surj g).choose) (fun g => (expR_surj g).choose_spec.2) (fun g => (expR_surj g).choose_spec.1)

/-- Interpolation for one joint. -/
noncomputable def Joint.space (j : Joint) : Space ℝ j.G :=
  groupSpace (fun z u => j.exp (u • j.log z)) (fun z => by rw [zero_smul, j.exp_zero]) (fun z => by rw [one_smul, j.exp_log])

theorem halfTurn (j : Joint) (z : j.G) (hz : z ≠ 1) (hz2 : z * z = 1) :
    ∃ (p r : Straight ℝ j.G), p.cons = none ∧ p.pr = (0, 1) ∧ p.reverse j.space = .ok r ∧ r.pr = (0, 1) ∧ r.eval j.space (1 / 2) ≠ p.eval j.space (1 / 2) := by
  obtain ⟨r, e1, e2, _, _, e3⟩ := C128_halfturn (K := ℝ) (fun z u => j.exp (u • j.log z)) (fun z => by rw [zero_smul, j.exp_zero]) (fun z => by rw [one_smul, j.exp_log])
    ⟨(0, 1), 1, z, none⟩ rfl one_pos (by simpa using hz) (by simpa using hz2)
  refine ⟨⟨(0, 1), 1, z, none⟩, r, rfl, rfl, e1, by rw [e2]; simp, ?_⟩
  simpa [Joint.space] using e3

/-- Half a turn about the first axis. -/
noncomputable def qi : ℍ[ℝ] := ⟨0, 1, 0, 0⟩

theorem qi_norm : ‖qi‖ = 1 := by
  have : ‖qi‖ * ‖qi‖ = 1 := by rw [← Quaternion.normSq_eq_norm_mul_self, Quaternion.normSq_def']; simp [qi]
  nlinarith [norm_nonneg qi]

/-- C128: with a ball joint, whatever the logarithm, there is a straight path whose reverse does not go through its middle configuration (half a turn). -/
theorem C128_ball_counterexample (log : SO3 → Fin 3 → ℝ) (h1 : ∀ g, expR (log g) = g) (h2 : ∀ g, ang (ext (log g)) ≤ Real.pi) :
    ∃ (p r : Straight ℝ (ball log h1 h2).G), p.cons = none ∧ p.pr = (0, 1) ∧ p.reverse (ball log h1 h2).space = .ok r ∧ r.pr = (0, 1) ∧
      r.eval (ball log h1 h2).space (1 / 2) ≠ p.eval (ball log h1 h2).space (1 / 2) := by
  let i : U := ⟨qi, mem_U qi_norm⟩
  have z1 : (QuotientGroup.mk i : SO3) ≠ 1 := by
    rw [← QuotientGroup.mk_one, ne_eq, mk_eq]
    rintro (h | h)
    · have := congrArg QuaternionAlgebra.re h
      simp [i, qi] at this
    · have := congrArg QuaternionAlgebra.re h
      simp [i, qi] at this
  have z2 : (QuotientGroup.mk i : SO3) * QuotientGroup.mk i = 1 := by
    rw [← QuotientGroup.mk_mul, ← QuotientGroup.mk_one, mk_eq]
    right
    show qi * qi = -1
    have a0 : qi.re = 0 := rfl
    have a1 : qi.imI = 1 := rfl
    have a2 : qi.imJ = 0 := rfl
    have a3 : qi.imK = 0 := rfl
    ext
    · rw [Quaternion.re_mul, a0, a1, a2, a3]; simp
    · rw [Quaternion.imI_mul, a0, a1, a2, a3]; simp
    · rw [Quaternion.imJ_mul, a0, a1, a2, a3]; simp
    · rw [Quaternion.imK_mul, a0, a1, a2, a3]; simp
  exact halfTurn (ball log h1 h2) (QuotientGroup.mk i : SO3) z1 z2

/-- A robot with a translation, an unbounded rotation and a ball joint. -/
noncomputable def mixed : Fin 3 → Joint := ![line, circle, theBall]

/-- Rotations below half a turn are short whatever the configuration they begin at. -/
theorem theBall_short (g : SO3) (v : Fin 3 → ℝ) (hv : ang (ext v) < Real.pi) : theBall.short (theBall.log (g⁻¹ * (g * expR v) : SO3)) := by
  rw [inv_mul_cancel_left]
  show theBall.short (theBall.log (theBall.exp v))
  rw [theBall.log_exp v hv]
  exact hv

/-- The hypothesis is met by any path of a ball joint that turns by less than half a turn. -/
example (g : SO3) (v : Fin 3 → ℝ) (hv : ang (ext v) < Real.pi) : GeoPair (robot fun _ : Unit => theBall) (fun _ => g) (fun _ => g * expR v) :=
  C128_joints_partial (fun _ : Unit => theBall) _ _ fun _ => theBall_short g v hv

end Verif.Joints
